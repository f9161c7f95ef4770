import Verif.Licm.Spec
import Verif.Licm.Runs

/-!
# Lemmas: a hoisted instruction leaves a valid function (C72)
-/

set_option linter.unusedSimpArgs false
set_option linter.unusedVariables false
set_option linter.unusedSectionVars false

namespace Verif.Licm.Spec
open Verif.IfConv Verif.CodeSink Verif.CodeSink.Spec
open Verif.IfConv.Spec hiding Valid Right

variable {V M : Type} {S : Sem V M} {fn : Fn}

theorem blockDefs_eq (blk : Block) : blockDefs blk = defs blk := by
  unfold blockDefs defs
  congr 1

/-! ### The preheader -/

theorem findPred_spec {A : Info} {h : Lab} : ∀ {ps : List Lab} {acc : Option Lab} {p : Lab},
    findPred A h ps acc = some (some p) →
    (∀ q ∈ ps, A.live q = true → A.dom h q = false → q = p) ∧ (∀ q, acc = some q → q = p) ∧
    (acc = some p ∨ (p ∈ ps ∧ A.live p = true ∧ A.dom h p = false))
  | [], acc, p, hf => by
    simp only [findPred, Option.some.injEq] at hf
    subst hf
    exact ⟨by simp, by rintro q ⟨⟩; rfl, .inl rfl⟩
  | a :: ps, acc, p, hf => by
    unfold findPred at hf
    split at hf
    · rename_i hc
      simp only [Bool.and_eq_true, Bool.not_eq_true'] at hc
      have step : findPred A h ps (some a) = some (some p) → (∀ q, acc = some q → q = a) →
          (∀ q ∈ a :: ps, A.live q = true → A.dom h q = false → q = p) ∧ (∀ q, acc = some q → q = p) ∧
          (acc = some p ∨ (p ∈ a :: ps ∧ A.live p = true ∧ A.dom h p = false)) := by
        intro hf hacc
        obtain ⟨h1, h2, h3⟩ := findPred_spec hf
        have hap := h2 a rfl
        subst hap
        refine ⟨fun q hq l1 l2 => ?_, hacc, .inr ⟨by simp, hc⟩⟩
        rcases List.mem_cons.1 hq with e | hq
        · exact e
        · exact h1 q hq l1 l2
      split at hf
      · rename_i q
        split at hf
        · cases hf
        · rename_i hpq
          exact step hf (by rintro q' ⟨⟩; exact (Classical.not_not.1 hpq).symm)
      · exact step hf (by rintro q' ⟨⟩)
    · rename_i hc
      obtain ⟨h1, h2, h3⟩ := findPred_spec hf
      refine ⟨fun q hq l1 l2 => ?_, h2, h3.imp id (fun ⟨a, b⟩ => ⟨List.mem_cons_of_mem _ a, b⟩)⟩
      rcases List.mem_cons.1 hq with e | hq
      · subst e; simp [l1, l2] at hc
      · exact h1 q hq l1 l2

/-- The blocks of a loop. -/
def In (fn : Fn) (h m b : Lab) : Prop := Reachable fn b ∧ Dominates fn h b ∧ ¬ Dominates fn m b

theorem in_iff {A : Info} (hA : Right fn A) {h m b} : inLoop A h m b = true ↔ In fn h m b := by
  unfold inLoop In
  simp only [Bool.and_eq_true, Bool.not_eq_true']
  constructor
  · rintro ⟨⟨h1, h2⟩, h3⟩
    have hr := (hA.live b).1 h1
    refine ⟨hr, (hA.dom h b hr).1 h2, fun hd => ?_⟩
    rw [(hA.dom m b hr).2 hd] at h3; cases h3
  · rintro ⟨hr, h2, h3⟩
    refine ⟨⟨(hA.live b).2 hr, (hA.dom h b hr).2 h2⟩, ?_⟩
    cases e : A.dom m b with
    | false => rfl
    | true => exact absurd ((hA.dom m b hr).1 e) h3

/-- What is known of a loop with a preheader. -/
structure Pre (fn : Fn) (h m p : Lab) : Prop where
  edge : h ∈ fn.succs p
  only : ∀ b ∈ fn.succs p, b = h
  reach : Reachable fn p
  above : ¬ Dominates fn h p
  uniq : ∀ q, h ∈ fn.succs q → Reachable fn q → ¬ Dominates fn h q → q = p
  closed : ∀ a b, Reachable fn a → b ∈ fn.succs a → Dominates fn m a → Dominates fn h b → Dominates fn m b

theorem pre_of (hv : Valid S fn) {A : Info} (hA : Right fn A) (hC : Closed fn) {h m c p : Lab}
    (hm : (fn.block h).merge = some (.loop m c)) (hp : preheader fn A h = some p) : Pre fn h m p := by
  unfold preheader at hp
  split at hp
  · rename_i p' hf
    split at hp
    · rename_i hs
      cases hp
      obtain ⟨h1, _, h3⟩ := findPred_spec hf
      rcases h3 with h3 | ⟨h3, h4, h5⟩
      · cases h3
      · have hr := (hA.live p).1 h4
        refine ⟨(mem_preds hv.toValid).1 h3, ?_, hr, ?_, ?_, hC h m c hm⟩
        · intro b hb
          have := List.all_eq_true.1 hs b hb
          simpa using this
        · intro hd; rw [(hA.dom h p hr).2 hd] at h5; cases h5
        · intro q hq hrq hdq
          refine h1 q ((mem_preds hv.toValid).2 hq) ((hA.live q).2 hrq) ?_
          cases e : A.dom h q with
          | false => rfl
          | true => exact absurd ((hA.dom h q hrq).1 e) hdq
    · cases hp
  · cases hp

/-- Loops are entered through the preheader and the header. -/
theorem Pre.enter {h m p : Lab} (g : Pre fn h m p) {a b} (hr : Reachable fn a) (hs : b ∈ fn.succs a)
    (hb : In fn h m b) (ha : ¬ In fn h m a) : b = h ∧ a = p := by
  have hna : ¬ Dominates fn h a := by
    intro hd
    have hma : Dominates fn m a := Classical.byContradiction fun hn => ha ⟨hr, hd, hn⟩
    exact hb.2.2 (g.closed a b hr hs hma hb.2.1)
  have hbh : b = h := by
    apply Classical.byContradiction
    intro hne
    apply hna
    intro l hl
    have := hb.2.1 _ (hl.next hs)
    simpa [Ne.symm hne] using this
  subst hbh
  exact ⟨rfl, g.uniq a hs hr hna⟩

theorem Pre.dom_h (hv : Valid S fn) {h m p : Lab} (g : Pre fn h m p) : Dominates fn p h := by
  have key : ∀ l, Path fn l → h ∈ l → p ∈ l := by
    intro l hl
    induction hl with
    | entry => intro hh; simp at hh; subst hh; exact absurd g.edge (hv.entry_preds p)
    | @next a b l hp hs ih =>
      intro hh
      by_cases hal : h ∈ a :: l
      · exact List.mem_cons_of_mem _ (ih hal)
      · rcases List.mem_cons.1 hh with e | hh
        · subst e
          have : a = p := g.uniq a hs ⟨l, hp⟩ (fun hd => hal (hd l hp))
          subst this; simp
        · exact absurd hh hal
  exact fun l hl => key _ hl (by simp)

/-- A walk from the header to each block of the loop, inside the loop. -/
theorem Pre.inside (hv : Valid S fn) {h m p : Lab} (g : Pre fn h m p) {b} (hb : In fn h m b) :
    ∃ w, Walk fn h b w ∧ ∀ y ∈ w, In fn h m y := by
  have key : ∀ l, Path fn l → ∀ b l', l = b :: l' → In fn h m b → ∃ w, Walk fn h b w ∧ ∀ y ∈ w, In fn h m y := by
    intro l hl
    induction hl with
    | entry =>
      intro b l' e hb
      simp at e
      obtain ⟨rfl, rfl⟩ := e
      have := hb.2.1 [] .entry
      simp at this
      have he := g.edge
      rw [this] at he
      exact absurd he (hv.entry_preds p)
    | @next a b' l hp hs ih =>
      intro b l' e hb
      simp at e
      obtain ⟨rfl, rfl⟩ := e
      by_cases ha : In fn h m a
      · obtain ⟨w, h1, h2⟩ := ih a l rfl ha
        refine ⟨b' :: w, .next h1 hs, fun y hy => ?_⟩
        rcases List.mem_cons.1 hy with rfl | hy
        · exact hb
        · exact h2 y hy
      · obtain ⟨rfl, _⟩ := g.enter ⟨l, hp⟩ hs hb ha
        exact ⟨[b'], .nil _, fun y hy => by simp at hy; subst hy; exact hb⟩
  obtain ⟨l, hl⟩ := hb.1
  exact key _ hl b l rfl hb

/-- What dominates a block of the loop from outside dominates the preheader. -/
theorem Pre.dom_p (hv : Valid S fn) {h m p o b' : Lab} (g : Pre fn h m p) (ho : In fn h m o)
    (hd : Dominates fn b' o) (hn : ¬ In fn h m b') : Dominates fn b' p := by
  intro l hl
  obtain ⟨w, h1, h2⟩ := g.inside hv ho
  obtain ⟨l', k1, k2⟩ := (hl.next g.edge).walk h1
  rcases k2 b' (hd _ k1) with hb | hb
  · exact absurd (h2 b' hb) hn
  · rcases List.mem_cons.1 hb with rfl | hb
    · exact absurd (h2 _ h1.start_mem) hn
    · exact hb

/-! ### Hoisted instructions -/

/-- What is known of a hoist of `op d ops` from `o` to `p`. -/
structure Lifted (S : Sem V M) (fn : Fn) (o p : Lab) (d : Id) (ops : List Id) : Prop where
  ne : p ≠ o
  dom : Dominates fn p o
  reach : Reachable fn o
  mem : .op d ops ∈ (fn.block o).body
  listed : p ∈ fn.labels
  avail : ∀ x ∈ ops, x ≠ d ∧ Avail S fn x p

theorem hoist_lifted (hv : Valid S fn) {A : Info} (hA : Right fn A) (hC : Closed fn) {kind h o d ops fn'}
    (hh : hoist fn A kind h o d ops = some fn') :
    ∃ p, fn' = lift fn o p (.op d ops) ∧ Lifted S fn o p d ops ∧ (kind d).mayHoist = true := by
  unfold hoist at hh
  split at hh
  · rename_i m c hm
    split at hh
    · rename_i hc
      obtain ⟨hi, hin, hsh⟩ := hc
      split at hh
      · rename_i p hp
        cases hh
        have g := pre_of hv hA hC hm hp
        have ho := (in_iff hA).1 hin
        simp only [shouldHoist, Bool.and_eq_true] at hsh
        have hout : ∀ x ∈ ops, ∀ b, x ∈ defs (fn.block b) → ¬ In fn h m b := by
          intro x hx b hb hin
          have hb' : b ∈ fn.labels := by
            apply Classical.byContradiction
            intro hl
            obtain ⟨e1, e2, _⟩ := hv.listed b hl
            simp [defs, e1, e2] at hb
          have := List.all_eq_true.1 (List.all_eq_true.1 hsh.2 x hx) b hb'
          rw [(in_iff hA).2 hin, blockDefs_eq] at this
          simp [hb] at this
        refine ⟨p, rfl, ⟨?_, (g.dom_h hv).trans ho.2.1, ho.1, hi, ?_, ?_⟩, hsh.1⟩
        · rintro rfl; exact g.above ho.2.1
        · exact hv.labels p (List.ne_nil_of_mem g.edge)
        · intro x hx
          have hno := hout x hx o
          refine ⟨?_, ?_⟩
          · rintro rfl; exact hno (op_defs hi) ho
          · obtain ⟨pre, post, e⟩ := List.append_of_mem hi
            rcases hv.ready o pre _ post e x hx with h' | h' | h' | ⟨b', h1, h2, h3⟩
            · exact absurd ho (hno (List.mem_append_left _ h'))
            · exact absurd ho (hno (List.mem_append_right _ (by
                rw [e, List.map_append]; exact List.mem_append_left _ h')))
            · exact .inl h'
            · exact .inr ⟨b', h2, g.dom_p hv ho h3 (hout x hx b' h2)⟩
      · cases hh
    · cases hh
  · cases hh

section graph
variable {o p : Lab} {i : Inst}

theorem lift_term (b : Lab) : ((lift fn o p i).block b).term = (fn.block b).term := by
  simp only [lift]; split
  · rfl
  · split <;> rfl

theorem lift_phis (b : Lab) : ((lift fn o p i).block b).phis = (fn.block b).phis := by
  simp only [lift]; split
  · rfl
  · split <;> rfl

theorem lift_merge (b : Lab) : ((lift fn o p i).block b).merge = (fn.block b).merge := by
  simp only [lift]; split
  · rfl
  · split <;> rfl

theorem lift_succs (b : Lab) : (lift fn o p i).succs b = fn.succs b := by
  simp [Fn.succs, lift_term]

theorem lift_preds (b : Lab) : (lift fn o p i).preds b = fn.preds b := by
  unfold Fn.preds
  have : (lift fn o p i).succs = fn.succs := funext lift_succs
  rw [this]; rfl

theorem lift_path {l} : Path (lift fn o p i) l ↔ Path fn l := by
  constructor
  · intro h
    induction h with
    | entry => exact .entry
    | next _ hs ih => exact ih.next (by rwa [lift_succs] at hs)
  · intro h
    induction h with
    | entry => exact .entry (fn := lift fn o p i)
    | next _ hs ih => exact ih.next (by rwa [lift_succs])

theorem lift_dom {a b} : Dominates (lift fn o p i) a b ↔ Dominates fn a b := by
  unfold Dominates
  constructor <;> intro h l hp
  · exact h l (lift_path.2 hp)
  · exact h l (lift_path.1 hp)

theorem lift_reachable {b} : Reachable (lift fn o p i) b ↔ Reachable fn b := by
  unfold Reachable
  simp only [lift_path]

theorem lift_right {A : Info} (hA : Right fn A) : Right (lift fn o p i) A :=
  ⟨fun b => (hA.live b).trans lift_reachable.symm,
   fun a b hr => (hA.dom a b (lift_reachable.1 hr)).trans lift_dom.symm⟩

theorem lift_closed (hC : Closed fn) : Closed (lift fn o p i) := by
  intro h m c hm a b hr hs h1 h2
  rw [lift_merge] at hm
  rw [lift_succs] at hs
  exact lift_dom.2 (hC h m c hm a b (lift_reachable.1 hr) hs (lift_dom.1 h1) (lift_dom.1 h2))

end graph

variable {o p : Lab} {d : Id} {ops : List Id}

theorem Lifted.split (h : Lifted S fn o p d ops) : ∃ pre post, (fn.block o).body = pre ++ .op d ops :: post ∧
    (fn.block o).body.erase (.op d ops) = pre ++ post := by
  obtain ⟨pre, post, h1, h2, h3⟩ := List.exists_erase_eq h.mem
  exact ⟨pre, post, h2, h3⟩

theorem Lifted.body_o (h : Lifted S fn o p d ops) :
    ((lift fn o p (.op d ops)).block o).body = (fn.block o).body.erase (.op d ops) := by
  simp [lift]

theorem Lifted.body_p (h : Lifted S fn o p d ops) :
    ((lift fn o p (.op d ops)).block p).body = (fn.block p).body ++ [.op d ops] := by
  simp [lift, h.ne]

theorem Lifted.body_other (h : Lifted S fn o p d ops) {b} (h1 : b ≠ o) (h2 : b ≠ p) :
    (lift fn o p (.op d ops)).block b = fn.block b := by
  simp [lift, h1, h2]

theorem Lifted.d_once (h : Lifted S fn o p d ops) (hv : Valid S fn) {b} (hb : d ∈ defs (fn.block b)) : b = o :=
  hv.once d b o hb (op_defs h.mem)

theorem Lifted.perm_o (h : Lifted S fn o p d ops) :
    (defs (fn.block o)).Perm (d :: defs ((lift fn o p (.op d ops)).block o)) := by
  obtain ⟨pre, post, e, e2⟩ := h.split
  unfold defs
  rw [h.body_o, lift_phis, e2, e]
  simp only [List.map_append, List.map_cons, instId]
  rw [← List.append_assoc, ← List.append_assoc]
  exact List.perm_middle

theorem Lifted.perm_p (h : Lifted S fn o p d ops) :
    (defs ((lift fn o p (.op d ops)).block p)).Perm (d :: defs (fn.block p)) := by
  unfold defs
  rw [h.body_p, lift_phis]
  simp only [List.map_append, List.map_cons, instId, List.map_nil]
  rw [← List.append_assoc]
  exact (List.perm_append_singleton _ _)

theorem Lifted.mem_defs (h : Lifted S fn o p d ops) (hv : Valid S fn) {x b} :
    x ∈ defs ((lift fn o p (.op d ops)).block b) ↔ (x = d ∧ b = p) ∨ (x ≠ d ∧ x ∈ defs (fn.block b)) := by
  by_cases hbo : b = o
  · subst hbo
    have hp := h.perm_o
    have hn := (hp.nodup_iff.1 (hv.nodup b))
    have hd := (List.nodup_cons.1 hn).1
    have hm := hp.mem_iff (a := x)
    rw [List.mem_cons] at hm
    constructor
    · intro hx
      have hxd : x ≠ d := fun e => hd (e ▸ hx)
      exact .inr ⟨hxd, hm.2 (.inr hx)⟩
    · rintro (⟨_, e⟩ | ⟨hxd, hx⟩)
      · exact absurd e.symm h.ne
      · rcases hm.1 hx with e | hx
        · exact absurd e hxd
        · exact hx
  · by_cases hbt : b = p
    · subst hbt
      rw [h.perm_p.mem_iff, List.mem_cons]
      constructor
      · rintro (e | hx)
        · exact .inl ⟨e, rfl⟩
        · refine .inr ⟨?_, hx⟩
          rintro rfl
          exact hbo (h.d_once hv hx)
      · rintro (⟨e, _⟩ | ⟨_, hx⟩)
        · exact .inl e
        · exact .inr hx
    · rw [h.body_other hbo hbt]
      constructor
      · intro hx
        refine .inr ⟨?_, hx⟩
        rintro rfl
        exact hbo (h.d_once hv hx)
      · rintro (⟨_, e⟩ | ⟨_, hx⟩)
        · exact absurd e hbt
        · exact hx

/-- Uses of `d` are below `o`. -/
theorem Lifted.use_body (h : Lifted S fn o p d ops) (hv : Valid S fn) {b i} (hi : i ∈ (fn.block b).body)
    (hd : d ∈ reads i) : Dominates fn o b :=
  uses_below hv (op_defs h.mem) ((mem_useBlocks hv).2 (.inl ⟨i, hi, hd⟩))

theorem Lifted.use_term (h : Lifted S fn o p d ops) (hv : Valid S fn) {b}
    (hd : d ∈ termReads (fn.block b).term) : Dominates fn o b :=
  uses_below hv (op_defs h.mem) ((mem_useBlocks hv).2 (.inr (.inl hd)))

theorem Lifted.use_phi (h : Lifted S fn o p d ops) (hv : Valid S fn) {b φ} (hφ : φ ∈ (fn.block b).phis) {q}
    (hd : (d, q) ∈ φ.args) : Dominates fn o q :=
  uses_below hv (op_defs h.mem) ((mem_useBlocks hv).2 (.inr (.inr ⟨b, φ, hφ, hd⟩)))

theorem Lifted.not_dom (h : Lifted S fn o p d ops) : ¬ Dominates fn o p := fun hd =>
  h.ne (h.dom.antisymm hd h.reach)

theorem Lifted.outside (h : Lifted S fn o p d ops) (hv : Valid S fn) {x b} (hx : x ≠ d)
    (ho : Outside S fn x b) : Outside S (lift fn o p (.op d ops)) x b := by
  rcases ho with ⟨h1, h2⟩ | ⟨b', h1, h2, h3⟩
  · refine .inl ⟨h1, fun b' hb' => ?_⟩
    rcases (h.mem_defs hv).1 hb' with ⟨e, _⟩ | ⟨_, hb'⟩
    · exact hx e
    · exact h2 b' hb'
  · exact .inr ⟨b', h1, (h.mem_defs hv).2 (.inr ⟨hx, h2⟩), lift_dom.2 h3⟩

theorem Lifted.avail' (h : Lifted S fn o p d ops) (hv : Valid S fn) {x b} (hd : x = d → Dominates fn o b)
    (ho : Avail S fn x b) : Avail S (lift fn o p (.op d ops)) x b := by
  by_cases hx : x = d
  · exact .inr ⟨p, (h.mem_defs hv).2 (.inl ⟨hx, rfl⟩), lift_dom.2 (h.dom.trans (hd hx))⟩
  · rcases ho with ⟨h1, h2⟩ | ⟨b', h2, h3⟩
    · refine .inl ⟨h1, fun b' hb' => ?_⟩
      rcases (h.mem_defs hv).1 hb' with ⟨e, _⟩ | ⟨_, hb'⟩
      · exact hx e
      · exact h2 b' hb'
    · exact .inr ⟨b', (h.mem_defs hv).2 (.inr ⟨hx, h2⟩), lift_dom.2 h3⟩

theorem Lifted.valid (h : Lifted S fn o p d ops) (hv : Valid S fn) :
    Valid S (lift fn o p (.op d ops)) where
  entry_phis := by rw [lift_phis]; exact hv.entry_phis
  entry_preds b := by rw [lift_succs]; exact hv.entry_preds b
  labels b := by rw [lift_succs]; exact hv.labels b
  phi_preds b φ hφ := by simp only [lift_succs]; rw [lift_phis] at hφ; exact hv.phi_preds b φ hφ
  phi_nodup b := by rw [lift_phis]; exact hv.phi_nodup b
  phi_avail b φ hφ a ha := by
    rw [lift_phis] at hφ
    refine h.avail' hv (fun e => ?_) (hv.phi_avail b φ hφ a ha)
    exact h.use_phi hv hφ (q := a.2) (by rw [← e]; exact ha)
  cond_avail b c t' f ht := by
    rw [lift_term] at ht
    refine h.avail' hv (fun e => ?_) (hv.cond_avail b c t' f ht)
    exact h.use_term hv (by rw [ht, ← e]; simp [termReads])
  listed b hb := by
    have hb' : b ∉ fn.labels := hb
    obtain ⟨h1, h2, h3⟩ := hv.listed b hb'
    refine ⟨by rw [lift_phis]; exact h1, ?_, by rw [lift_term]; exact h3⟩
    by_cases hbo : b = o
    · subst hbo
      have := h.mem
      rw [h2] at this; simp at this
    · by_cases hbt : b = p
      · subst hbt; exact absurd h.listed hb'
      · rw [h.body_other hbo hbt]; exact h2
  targets b s hs := by rw [lift_succs] at hs; exact hv.targets b s hs
  once x b b' hb hb' := by
    rcases (h.mem_defs hv).1 hb with ⟨e, e1⟩ | ⟨e, hb⟩ <;> rcases (h.mem_defs hv).1 hb' with ⟨e', e1'⟩ | ⟨e', hb'⟩
    · rw [e1, e1']
    · exact absurd e e'
    · exact absurd e' e
    · exact hv.once x b b' hb hb'
  nodup b := by
    by_cases hbo : b = o
    · subst hbo
      exact (List.nodup_cons.1 (h.perm_o.nodup_iff.1 (hv.nodup b))).2
    · by_cases hbt : b = p
      · subst hbt
        refine h.perm_p.nodup_iff.2 (List.nodup_cons.2 ⟨?_, hv.nodup b⟩)
        intro hd
        exact hbo (h.d_once hv hd)
      · rw [h.body_other hbo hbt]; exact hv.nodup b
  ready b pre j post e x hx := by
    rw [lift_phis]
    have hdout : x = d → b ≠ p → Dominates fn o b → Outside S (lift fn o p (.op d ops)) x b := by
      intro e1 e2 e3
      exact .inr ⟨p, Ne.symm e2, (h.mem_defs hv).2 (.inl ⟨e1, rfl⟩), lift_dom.2 (h.dom.trans e3)⟩
    by_cases hbo : b = o
    · subst hbo
      by_cases hxd : x = d
      · exact .inr (.inr (hdout hxd (Ne.symm h.ne) (Dominates.refl _)))
      · rw [h.body_o] at e
        obtain ⟨P, Q, e1, e2⟩ := h.split
        rw [e2] at e
        rcases List.append_eq_append_iff.1 e with ⟨a, h1, h2⟩ | ⟨a, h1, h2⟩
        · rcases hv.ready b (P ++ .op d ops :: a) j post (by rw [e1, h2]; simp) x hx with h' | h' | h'
          · exact .inl h'
          · refine .inr (.inl ?_)
            rw [h1]
            simp only [List.map_append, List.map_cons, List.mem_append, List.mem_cons, instId] at h' ⊢
            rcases h' with h' | h' | h'
            · exact .inl h'
            · exact absurd h' hxd
            · exact .inr h'
          · exact .inr (.inr (h.outside hv hxd h'))
        · cases a with
          | nil =>
            simp only [List.append_nil, List.nil_append] at h1 h2
            rcases hv.ready b (P ++ [.op d ops]) j post (by rw [e1, ← h2]; simp) x hx with h' | h' | h'
            · exact .inl h'
            · refine .inr (.inl ?_)
              rw [← h1]
              simp only [List.map_append, List.map_cons, List.map_nil, List.mem_append, List.mem_cons, instId,
                List.not_mem_nil, or_false] at h'
              rcases h' with h' | h'
              · exact h'
              · exact absurd h' hxd
            · exact .inr (.inr (h.outside hv hxd h'))
          | cons y a =>
            simp only [List.cons_append, List.cons.injEq] at h2
            obtain ⟨rfl, h2⟩ := h2
            rcases hv.ready b pre j (a ++ .op d ops :: Q) (by rw [e1, h1]; simp) x hx with h' | h' | h'
            · exact .inl h'
            · exact .inr (.inl h')
            · exact .inr (.inr (h.outside hv hxd h'))
    · by_cases hbt : b = p
      · subst hbt
        rw [h.body_p] at e
        rcases List.append_eq_append_iff.1 e with ⟨a, h1, h2⟩ | ⟨a, h1, h2⟩
        · -- the hoisted instruction itself
          cases a with
          | cons y a => simp at h2
          | nil =>
            simp at h1 h2
            obtain ⟨rfl, rfl⟩ := h2
            obtain ⟨hxd, ha⟩ := h.avail x hx
            rcases ha with h' | ⟨b', h2, h3⟩
            · exact .inr (.inr (h.outside hv hxd (.inl h')))
            · by_cases hb' : b' = b
              · subst hb'
                rw [h1]
                rcases List.mem_append.1 h2 with h' | h'
                · exact .inl h'
                · exact .inr (.inl h')
              · exact .inr (.inr (h.outside hv hxd (.inr ⟨b', hb', h2, h3⟩)))
        · cases a with
          | nil =>
            simp at h1 h2
            obtain ⟨rfl, rfl⟩ := h2
            obtain ⟨hxd, ha⟩ := h.avail x hx
            rcases ha with h' | ⟨b', h2, h3⟩
            · exact .inr (.inr (h.outside hv hxd (.inl h')))
            · by_cases hb' : b' = b
              · subst hb'
                rw [← h1]
                rcases List.mem_append.1 h2 with h' | h'
                · exact .inl h'
                · exact .inr (.inl h')
              · exact .inr (.inr (h.outside hv hxd (.inr ⟨b', hb', h2, h3⟩)))
          | cons y a =>
            simp only [List.cons_append, List.cons.injEq] at h2
            obtain ⟨rfl, h2⟩ := h2
            have hj : j ∈ (fn.block b).body := by rw [h1]; simp
            have hxd : x ≠ d := by
              rintro rfl
              exact h.not_dom (h.use_body hv hj hx)
            rcases hv.ready b pre j a h1 x hx with h' | h' | h'
            · exact .inl h'
            · exact .inr (.inl h')
            · exact .inr (.inr (h.outside hv hxd h'))
      · rw [h.body_other hbo hbt] at e
        by_cases hxd : x = d
        · have hj : j ∈ (fn.block b).body := by rw [e]; simp
          exact .inr (.inr (hdout hxd hbt (h.use_body hv hj (hxd ▸ hx))))
        · rcases hv.ready b pre j post e x hx with h' | h' | h'
          · exact .inl h'
          · exact .inr (.inl h')
          · exact .inr (.inr (h.outside hv hxd h'))
  term b x hx := by
    rw [lift_term] at hx
    exact h.avail' hv (fun e => h.use_term hv (e ▸ hx)) (hv.term b x hx)
  header b m df hm := by
    rw [lift_merge] at hm
    obtain ⟨h1, h2, h3⟩ := hv.header b m df hm
    exact ⟨lift_dom.2 h1, h2, h3⟩

/-- The hoisted function is the one with the instruction in its earlier place. -/
theorem Lifted.shift (h : Lifted S fn o p d ops) (hv : Valid S fn) :
    Shift (lift fn o p (.op d ops)) fn p o d ops where
  ne := Ne.symm h.ne
  dom := lift_dom.2 h.dom
  reach := by
    obtain ⟨l, hl⟩ := h.reach
    obtain ⟨u, r, e⟩ := List.append_of_mem (h.dom l hl)
    exact lift_reachable.2 ⟨r, hl.suffix e⟩
  useBody b i hi hd := by
    refine lift_dom.2 ?_
    by_cases hbo : b = o
    · subst hbo; exact Dominates.refl _
    · by_cases hbp : b = p
      · subst hbp
        rw [h.body_p] at hi
        rcases List.mem_append.1 hi with hi | hi
        · exact h.use_body hv hi hd
        · simp at hi
          subst hi
          exact absurd rfl (h.avail d hd).1
      · rw [h.body_other hbo hbp] at hi
        exact h.use_body hv hi hd
  useTerm b hd := by rw [lift_term] at hd; exact lift_dom.2 (h.use_term hv hd)
  usePhi b φ hφ q hd := by rw [lift_phis] at hφ; exact lift_dom.2 (h.use_phi hv hφ hd)
  entry := rfl
  phis b := (lift_phis b).symm
  term b := (lift_term b).symm
  split := ⟨(fn.block p).body, [], h.body_p, by simp⟩
  body_t := by
    obtain ⟨A, B, e1, e2⟩ := h.split
    refine ⟨A, B, by rw [h.body_o, e2], e1, ?_⟩
    intro j hj hd
    obtain ⟨A1, A2, rfl⟩ := List.append_of_mem hj
    have hn := hv.nodup o
    unfold defs at hn
    rw [e1, List.map_append, List.map_cons] at hn
    have h1 := List.nodup_append.1 hn
    have h2 := List.nodup_append.1 h1.2.1
    rcases hv.ready o A1 j (A2 ++ .op d ops :: B) (by rw [e1]; simp) d hd with h' | h' | ⟨_, h'⟩ | ⟨b', h', h'', _⟩
    · exact h1.2.2 d h' d (by simp [instId]) rfl
    · exact h2.2.2 d (by rw [List.map_append]; exact List.mem_append_left _ h') d (by simp [instId]) rfl
    · exact h' o (op_defs h.mem)
    · exact h' (h.d_once hv h'')
  body_other b h1 h2 := by rw [h.body_other h2 h1]

end Verif.Licm.Spec
