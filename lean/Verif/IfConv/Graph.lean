import Verif.IfConv.Spec

/-!
# Lemmas: paths, and which side of a selection is taken (C70)
-/

set_option linter.unusedSimpArgs false
set_option linter.unusedVariables false

namespace Verif.IfConv.Spec

variable {fn : Fn}

theorem Path.ne {l} (h : Path fn l) : l ≠ [] := by cases h <;> simp

theorem Path.suffix {l} (h : Path fn l) : ∀ {u a r}, l = u ++ a :: r → Path fn (a :: r) := by
  induction h with
  | entry =>
    intro u a r e
    cases u with
    | nil => simp at e; obtain ⟨rfl, rfl⟩ := e; exact .entry
    | cons x u => simp at e
  | @next a b l hp hs ih =>
    intro u x r e
    cases u with
    | nil => simp at e; obtain ⟨rfl, rfl⟩ := e; exact .next hp hs
    | cons y u => simp at e; exact ih e.2

theorem Walk.head {a b w} (h : Walk fn a b w) : ∃ u, w = b :: u := by
  cases h <;> exact ⟨_, rfl⟩

theorem Walk.last {a b w} (h : Walk fn a b w) : ∃ u, w = u ++ [a] := by
  induction h with
  | nil => exact ⟨[], rfl⟩
  | @next b c l _ _ ih => obtain ⟨u, rfl⟩ := ih; exact ⟨c :: u, rfl⟩

theorem Walk.start_mem {a b w} (h : Walk fn a b w) : a ∈ w := by
  obtain ⟨u, rfl⟩ := h.last; simp

theorem Walk.end_mem {a b w} (h : Walk fn a b w) : b ∈ w := by
  obtain ⟨u, rfl⟩ := h.head; simp

theorem Walk.split {a b w} (h : Walk fn a b w) : ∀ {x}, x ∈ w →
    ∃ u v, Walk fn a x u ∧ Walk fn x b v ∧ (∀ y ∈ u, y ∈ w) ∧ (∀ y ∈ v, y ∈ w) := by
  induction h with
  | nil => intro x hx; simp at hx; subst hx; exact ⟨_, _, .nil _, .nil _, by simp, by simp⟩
  | @next b c l hw hs ih =>
    intro x hx
    rcases List.mem_cons.1 hx with rfl | hx
    · exact ⟨_, _, .next hw hs, .nil _, fun y hy => hy, by simp⟩
    · obtain ⟨u, v, h1, h2, h3, h4⟩ := ih hx
      refine ⟨u, c :: v, h1, .next h2 hs, fun y hy => List.mem_cons_of_mem _ (h3 y hy), ?_⟩
      intro y hy
      rcases List.mem_cons.1 hy with rfl | hy
      · simp
      · exact List.mem_cons_of_mem _ (h4 y hy)

/-- A path goes on along a walk. -/
theorem Path.walk {d l q v} (hp : Path fn (d :: l)) (h : Walk fn d q v) :
    ∃ l', Path fn (q :: l') ∧ ∀ y ∈ q :: l', y ∈ v ∨ y ∈ d :: l := by
  induction h with
  | nil => exact ⟨l, hp, fun y hy => Or.inr hy⟩
  | @next b c v hw hs ih =>
    obtain ⟨l', h1, h2⟩ := ih
    refine ⟨b :: l', .next h1 hs, ?_⟩
    intro y hy
    rcases List.mem_cons.1 hy with rfl | hy
    · simp
    · rcases h2 y hy with h | h
      · exact Or.inl (List.mem_cons_of_mem _ h)
      · exact Or.inr h

theorem Path.last {l} (h : Path fn l) (c : Lab) : ∀ {q l'}, l = q :: l' → c ∈ l → q = c ∨
    ∃ x w rest, l = w ++ c :: rest ∧ x ∈ fn.succs c ∧ Walk fn x q w ∧ c ∉ w := by
  induction h with
  | entry => intro q l' e hc; simp at e hc; exact Or.inl (by rw [← e.1, hc])
  | @next a b l hp hs ih =>
    intro q l' e hc
    simp at e
    obtain ⟨rfl, rfl⟩ := e
    by_cases hbc : b = c
    · exact Or.inl hbc
    · right
      have hc' : c ∈ a :: l := by simpa [Ne.symm hbc] using hc
      rcases ih rfl hc' with rfl | ⟨x, w, rest, e, hx, hw, hn⟩
      · exact ⟨b, [b], l, rfl, hs, .nil _, by simpa using Ne.symm hbc⟩
      · refine ⟨x, b :: w, rest, by rw [e]; rfl, hx, .next hw hs, ?_⟩
        simp [Ne.symm hbc, hn]

theorem Path.first {l} (h : Path fn l) (c : Lab) : c ∈ l → ∃ l', Path fn (c :: l') ∧ c ∉ l' := by
  induction h with
  | entry => intro hc; simp at hc; subst hc; exact ⟨[], .entry, by simp⟩
  | @next a b l hp hs ih =>
    intro hc
    by_cases h : c ∈ a :: l
    · exact ih h
    · rcases List.mem_cons.1 hc with rfl | hc
      · exact ⟨_, .next hp hs, h⟩
      · exact absurd hc h

theorem Dominates.refl (a : Lab) : Dominates fn a a := fun l _ => by simp

theorem Dominates.trans {a b c : Lab} (h : Dominates fn a b) (h2 : Dominates fn b c) :
    Dominates fn a c := by
  intro l hp
  obtain ⟨u, r, e⟩ := List.append_of_mem (h2 l hp)
  have := h r (hp.suffix e)
  rw [e]
  exact List.mem_append_right _ this

/-- A strict dominator is reached before what it dominates. -/
theorem Dominates.before {d c : Lab} (h : Dominates fn d c) (hr : Reachable fn c) (hne : d ≠ c) :
    ∃ l, Path fn (d :: l) ∧ c ∉ d :: l := by
  obtain ⟨l, hl⟩ := hr
  obtain ⟨l', hp, hn⟩ := hl.first c (by simp)
  have hd := h l' hp
  have hd' : d ∈ l' := by simpa [hne] using hd
  obtain ⟨u, r, rfl⟩ := List.append_of_mem hd'
  refine ⟨r, hp.suffix (u := c :: u) rfl, fun hc => hn (List.mem_append_right _ hc)⟩

theorem Dominates.antisymm {a b : Lab} (h : Dominates fn a b) (h2 : Dominates fn b a)
    (hr : Reachable fn b) : a = b := by
  apply Classical.byContradiction
  intro hne
  obtain ⟨l, hp, hn⟩ := h.before hr hne
  exact hn (h2 l hp)

/-- A strict dominator of `c` is not met on a walk to a block dominated by `c` that avoids `c`. -/
theorem strict_not_on {d c q x : Lab} {w} (h : Dominates fn d c) (hr : Reachable fn c) (hc : Dominates fn c q)
    (hw : Walk fn x q w) (hcw : c ∉ w) : d ∉ w := by
  intro hd
  have hne : d ≠ c := fun e => hcw (e ▸ hd)
  obtain ⟨l, hp, hn⟩ := h.before hr hne
  obtain ⟨u, v, _, h2, _, h4⟩ := hw.split hd
  obtain ⟨l', hp', hm⟩ := hp.walk h2
  rcases hm c (hc l' hp') with h' | h'
  · exact hcw (h4 c h')
  · exact hn h'

/-- What the pass has checked about a block `b` with predecessors `p0`, `p1` that ends the selection at
`c`, and what is assumed of it. -/
structure Good (fn : Fn) (c t f b p0 p1 : Lab) : Prop where
  d0 : Dominates fn c p0
  d1 : Dominates fn c p1
  near : ∀ d, Dominates fn d p0 → Dominates fn d p1 → Dominates fn d c
  r0 : Reachable fn p0
  r1 : Reachable fn p1
  nb0 : ¬ Dominates fn b p0
  nb1 : ¬ Dominates fn b p1
  ne : p0 ≠ p1
  preds : ∀ p, b ∈ fn.succs p ↔ (p = p0 ∨ p = p1)
  succs : fn.succs c = [t, f]
  once : ¬ (t = b ∧ f = b)
  red : Reducible fn
  apart : Apart fn c t f b

variable {c t f b p0 p1 : Lab}

theorem Good.swap (g : Good fn c t f b p0 p1) : Good fn c t f b p1 p0 :=
  ⟨g.d1, g.d0, fun d h h' => g.near d h' h, g.r1, g.r0, g.nb1, g.nb0, fun e => g.ne e.symm,
    fun p => by rw [g.preds p]; exact Or.comm, g.succs, g.once, g.red, g.apart⟩

theorem Good.reach (g : Good fn c t f b p0 p1) : Reachable fn c := by
  obtain ⟨l, hl⟩ := g.r0
  obtain ⟨u, r, e⟩ := List.append_of_mem (g.d0 l hl)
  exact ⟨r, hl.suffix e⟩

theorem Good.reachb (g : Good fn c t f b p0 p1) : Reachable fn b := by
  obtain ⟨l, hl⟩ := g.r0
  exact ⟨_, hl.next ((g.preds p0).2 (Or.inl rfl))⟩

theorem Good.dp (g : Good fn c t f b p0 p1) {p} (h : p = p0 ∨ p = p1) : Dominates fn c p := by
  rcases h with rfl | rfl
  · exact g.d0
  · exact g.d1

theorem Good.rp (g : Good fn c t f b p0 p1) {p} (h : p = p0 ∨ p = p1) : Reachable fn p := by
  rcases h with rfl | rfl
  · exact g.r0
  · exact g.r1

theorem Good.nbp (g : Good fn c t f b p0 p1) {p} (h : p = p0 ∨ p = p1) : ¬ Dominates fn b p := by
  rcases h with rfl | rfl
  · exact g.nb0
  · exact g.nb1

/-- No way round from the end of the selection without its branch. -/
theorem Good.no_return (g : Good fn c t f b p0 p1) {p v} (hp : p = p0 ∨ p = p1) (hw : Walk fn b p v)
    (hc : c ∉ v) : False := by
  have hs : b ∈ fn.succs p := (g.preds p).2 hp
  have hcyc : Walk fn b b (b :: v) := .next hw hs
  have hlen : 1 < (b :: v).length := by
    obtain ⟨u, rfl⟩ := hw.head
    simp
  obtain ⟨h, hh, hd⟩ := g.red b _ hcyc hlen g.reachb
  have hhv : h ∈ v := by
    rcases List.mem_cons.1 hh with rfl | hh
    · exact hw.start_mem
    · exact hh
  have hpd : Dominates fn h p := hd p (List.mem_cons_of_mem _ hw.end_mem)
  have hbd : Dominates fn h b := hd b (by simp)
  have hne : h ≠ b := by
    rintro rfl
    exact g.nbp hp hpd
  have hall : ∀ q, b ∈ fn.succs q → Dominates fn h q := by
    intro q hq l hl
    have := hbd _ (hl.next hq)
    simpa [hne] using this
  have hdc := g.near h (hall p0 ((g.preds _).2 (Or.inl rfl))) (hall p1 ((g.preds _).2 (Or.inr rfl)))
  exact strict_not_on hdc g.reach (g.dp hp) hw hc hhv

/-- The block can be reached from `x` inside the selection. -/
def On (fn : Fn) (c b x q : Lab) : Prop := ∃ w, Walk fn x q w ∧ c ∉ w ∧ b ∉ w

theorem Good.side (g : Good fn c t f b p0 p1) {p l} (hp : p = p0 ∨ p = p1) (hne : p ≠ c)
    (h : Path fn (p :: l)) : ∃ x w rest, p :: l = w ++ c :: rest ∧ (x = t ∨ x = f) ∧ Walk fn x p w ∧
      c ∉ w ∧ b ∉ w := by
  rcases h.last c rfl (g.dp hp l h) with e | ⟨x, w, rest, e, hx, hw, hn⟩
  · exact absurd e hne
  · refine ⟨x, w, rest, e, ?_, hw, hn, ?_⟩
    · rw [g.succs] at hx; simpa using hx
    · intro hb
      obtain ⟨u, v, _, h2, _, h4⟩ := hw.split hb
      exact g.no_return hp h2 (fun hc => hn (h4 c hc))

theorem Good.on_some (g : Good fn c t f b p0 p1) {p} (hp : p = p0 ∨ p = p1) (hne : p ≠ c) :
    On fn c b t p ∨ On fn c b f p := by
  obtain ⟨l, hl⟩ := g.rp hp
  obtain ⟨x, w, r, _, hx, hw, h1, h2⟩ := g.side hp hne hl
  rcases hx with rfl | rfl
  · exact Or.inl ⟨w, hw, h1, h2⟩
  · exact Or.inr ⟨w, hw, h1, h2⟩

theorem Good.on_one (g : Good fn c t f b p0 p1) {p} (h : On fn c b t p) (h' : On fn c b f p) : False := by
  obtain ⟨w, hw, h1, h2⟩ := h
  obtain ⟨w', hw', h1', h2'⟩ := h'
  exact g.apart.apart p w w' hw h1 h2 hw' h1' h2'

theorem Good.dom_of_on (g : Good fn c t f b p0 p1) {p} (hp : p = p0 ∨ p = p1) (hne : p ≠ c) :
    (On fn c b t p → Dominates fn t p) ∧ (On fn c b f p → Dominates fn f p) := by
  constructor
  · intro ho l hl
    obtain ⟨x, w, r, e, hx, hw, h1, h2⟩ := g.side hp hne hl
    rcases hx with rfl | rfl
    · rw [e]; exact List.mem_append_left _ hw.start_mem
    · exact (g.on_one ho ⟨w, hw, h1, h2⟩).elim
  · intro ho l hl
    obtain ⟨x, w, r, e, hx, hw, h1, h2⟩ := g.side hp hne hl
    rcases hx with rfl | rfl
    · exact (g.on_one ⟨w, hw, h1, h2⟩ ho).elim
    · rw [e]; exact List.mem_append_left _ hw.start_mem

theorem On.ne {x q} (h : On fn c b x q) : x ≠ b := by
  obtain ⟨w, hw, _, h2⟩ := h
  rintro rfl
  exact h2 hw.start_mem

theorem Good.not_both (g : Good fn c t f b p0 p1) (h0 : p0 ≠ c) (h1 : p1 ≠ c) :
    ¬ (On fn c b t p0 ∧ On fn c b t p1) ∧ ¬ (On fn c b f p0 ∧ On fn c b f p1) := by
  constructor
  · rintro ⟨a, a'⟩
    have hd := g.near t ((g.dom_of_on (Or.inl rfl) h0).1 a) ((g.dom_of_on (Or.inr rfl) h1).1 a')
    have hb := g.apart.belowT a.ne
    exact hb.2 (hd.antisymm hb.1 g.reach)
  · rintro ⟨a, a'⟩
    have hd := g.near f ((g.dom_of_on (Or.inl rfl) h0).2 a) ((g.dom_of_on (Or.inr rfl) h1).2 a')
    have hb := g.apart.belowF a.ne
    exact hb.2 (hd.antisymm hb.1 g.reach)

theorem Good.reach_t (g : Good fn c t f b p0 p1) : Reachable fn t := by
  obtain ⟨l, hl⟩ := g.reach
  exact ⟨_, hl.next (by rw [g.succs]; simp)⟩

theorem Good.dom_iff (g : Good fn c t f b p0 p1) (h0 : p0 ≠ c) :
    Dominates fn t p0 ↔ On fn c b t p0 := by
  constructor
  · intro hd
    have htb : t ≠ b := by rintro rfl; exact g.nb0 hd
    rcases g.on_some (Or.inl rfl) h0 with h | h
    · exact h
    · exfalso
      obtain ⟨w, hw, hc, hb⟩ := h
      have hbt := g.apart.belowT htb
      obtain ⟨l, hl, hn⟩ := hbt.1.before g.reach_t (Ne.symm hbt.2)
      have hl2 : Path fn (f :: c :: l) := hl.next (by rw [g.succs]; simp)
      obtain ⟨l', hp, hm⟩ := hl2.walk hw
      have htw : t ∈ w := by
        rcases hm t (hd l' hp) with h | h
        · exact h
        · rcases List.mem_cons.1 h with rfl | h
          · exact hw.start_mem
          · exact absurd h hn
      obtain ⟨u, v, h1, _, h3, _⟩ := hw.split htw
      exact g.apart.apart t [t] u (.nil t) (by simpa using Ne.symm hbt.2) (by simpa using Ne.symm htb) h1
        (fun h => hc (h3 _ h)) (fun h => hb (h3 _ h))
  · exact (g.dom_of_on (Or.inl rfl) h0).1

theorem Good.not_dom_c (g : Good fn c t f b p0 p1) (h0 : p0 = c) : ¬ Dominates fn t p0 := by
  intro hd
  by_cases htb : t = b
  · subst htb; exact g.nb0 hd
  · have hbt := g.apart.belowT htb
    subst h0
    exact hbt.2 (hd.antisymm hbt.1 g.reach)

/-- Branching to `x` at `c` has led to `p`. -/
def Taken (fn : Fn) (c b x p : Lab) : Prop := (p = c ∧ x = b) ∨ (p ≠ c ∧ On fn c b x p)

/-- The test of the pass finds the side. -/
theorem Good.pick (g : Good fn c t f b p0 p1) {p} (hp : p = p0 ∨ p = p1) :
    (Taken fn c b t p → (((t = b ∧ p0 = c) ∨ Dominates fn t p0) ↔ p = p0)) ∧
    (Taken fn c b f p → (((t = b ∧ p0 = c) ∨ Dominates fn t p0) ↔ p = p1)) := by
  have hne := g.ne
  have honce := g.once
  have hcb : ∀ q, q = p0 ∨ q = p1 → q = c → t = b ∨ f = b := by
    intro q hq e
    have := (g.preds q).2 hq
    rw [e, g.succs] at this
    simp at this
    rcases this with h | h
    · exact Or.inl h.symm
    · exact Or.inr h.symm
  by_cases h0 : p0 = c
  · have hnd := g.not_dom_c h0
    have ht := hcb p0 (Or.inl rfl) h0
    constructor
    · rintro (⟨h1, h2⟩ | ⟨h1, h2⟩)
      · exact ⟨fun _ => by rw [h1, h0], fun _ => Or.inl ⟨h2, h0⟩⟩
      · have := h2.ne
        constructor
        · rintro (h | h)
          · exact absurd h.1 this
          · exact absurd h hnd
        · intro e; exact absurd (e.trans h0) h1
    · rintro (⟨h1, h2⟩ | ⟨h1, h2⟩)
      · constructor
        · rintro (h | h)
          · exact absurd ⟨h.1, h2⟩ honce
          · exact absurd h hnd
        · intro e; exact absurd (h0.trans (h1.symm.trans e)) hne
      · have := h2.ne
        have htb : t = b := ht.resolve_right this
        refine ⟨fun _ => hp.resolve_left fun e => h1 (e.trans h0), fun _ => Or.inl ⟨htb, h0⟩⟩
  · have hA : ((t = b ∧ p0 = c) ∨ Dominates fn t p0) ↔ On fn c b t p0 := by
      rw [← g.dom_iff h0]; simp [h0]
    rw [hA]
    have hone : ∀ {q}, On fn c b t q → On fn c b f q → False := fun a a' => g.on_one a a'
    have hsome := g.on_some (Or.inl rfl) h0
    by_cases h1 : p1 = c
    · have ht := hcb p1 (Or.inr rfl) h1
      constructor
      · rintro (⟨h2, h3⟩ | ⟨h2, h3⟩)
        · refine ⟨fun h => absurd h3 h.ne, fun e => absurd (e.symm.trans h2) h0⟩
        · have e : p = p0 := hp.resolve_right fun e => h2 (e.trans h1)
          subst e
          exact ⟨fun _ => rfl, fun _ => h3⟩
      · rintro (⟨h2, h3⟩ | ⟨h2, h3⟩)
        · refine ⟨fun _ => h2.trans h1.symm, fun _ => hsome.resolve_right fun h => h.ne h3⟩
        · have e : p = p0 := hp.resolve_right fun e => h2 (e.trans h1)
          subst e
          exact ⟨fun h => (hone h h3).elim, fun h => absurd h hne⟩
    · have hb := g.not_both h0 h1
      have hpc : p ≠ c := by rcases hp with rfl | rfl <;> assumption
      constructor
      · rintro (⟨h2, h3⟩ | ⟨h2, h3⟩)
        · exact absurd h2 hpc
        · rcases hp with rfl | rfl
          · exact ⟨fun _ => rfl, fun _ => h3⟩
          · exact ⟨fun h => absurd ⟨h, h3⟩ hb.1, fun h => absurd h.symm hne⟩
      · rintro (⟨h2, h3⟩ | ⟨h2, h3⟩)
        · exact absurd h2 hpc
        · rcases hp with rfl | rfl
          · exact ⟨fun h => (hone h h3).elim, fun h => absurd h hne⟩
          · exact ⟨fun _ => rfl, fun _ => hsome.resolve_right fun h => hb.2 ⟨h, h3⟩⟩

end Verif.IfConv.Spec
