import Verif.Ccp.Table
set_option linter.unusedSimpArgs false
set_option linter.unusedVariables false
set_option linter.unusedSectionVars false
/-!
# The table when the propagator is done
-/
namespace Verif.Ccp
open Propagator Propagator.Spec Ccp.Spec
variable {I B : Type} [DecidableEq I] [DecidableEq B] {f : Func I B}

theorem last_occurrence {α : Type} [DecidableEq α] {a : α} : ∀ {l : List α}, a ∈ l → ∃ l₁ l₂, l = l₁ ++ a :: l₂ ∧ a ∉ l₂
  | [], h => by cases h
  | x :: l, h => by
    by_cases hl : a ∈ l
    · obtain ⟨l₁, l₂, h1, h2⟩ := last_occurrence hl
      exact ⟨x :: l₁, l₂, by rw [h1]; rfl, h2⟩
    · rcases List.mem_cons.mp h with rfl | h
      · exact ⟨[], l, rfl, hl⟩
      · exact absurd h hl

theorem no_self_use {p : Prog I B} (wf : WellFormed p) {i : I} {b : B} (hb : p.block i = some b)
    (hp : p.isPhi i = false) : ¬ Uses p i i := by
  intro hu
  have hi := (wf.block i b).mp hb
  obtain ⟨l₁, l₂, h1, h2⟩ := last_occurrence hi
  exact h2 (wf.order b l₁ i l₂ i h1 hi hp hu)

/-- All that is needed of the final state. -/
structure Final (f : Func I B) (s : State I B (Table I)) : Prop where
  settled : Settled f.toProg s
  track : Track f.toProg f.visit f.init s

theorem find_split {t : List (Call I B)} {i : I} (h : ∃ c ∈ t, c.inst = i) :
    ∃ later c earlier, t = later ++ c :: earlier ∧ c.inst = i ∧ (∀ c' ∈ later, c'.inst ≠ i) ∧
      t.find? (fun c => decide (c.inst = i)) = some c := by
  induction t with
  | nil => obtain ⟨c, hc, -⟩ := h; cases hc
  | cons x t ih =>
    by_cases hx : x.inst = i
    · exact ⟨[], x, t, rfl, hx, by simp, by simp [hx]⟩
    · obtain ⟨c, hc, hi⟩ := h
      have hc : c ∈ t := by
        rcases List.mem_cons.mp hc with rfl | hc
        · exact absurd hi hx
        · exact hc
      obtain ⟨later, c, earlier, h1, h2, h3, h4⟩ := ih ⟨c, hc, hi⟩
      refine ⟨x :: later, c, earlier, by rw [h1]; rfl, h2, ?_, by rw [List.find?_cons, decide_eq_false hx]; exact h4⟩
      intro c' hc'
      rcases List.mem_cons.mp hc' with rfl | hc'
      · exact hx
      · exact h3 c' hc'

/-- The last visit of an instruction saw the final table. -/
theorem Final.visit (va : Valid f) (fc : ∀ i m k, f.fold i m = some k → f.const k ≠ none)
    {s : State I B (Table I)} (fin : Final f s) {i : I} {b : B} (hb : f.block i = some b) (hs : b ∈ s.simulated) :
    ∃ v0 v1 c, c ∈ s.trace ∧ c.inst = i ∧ f.visit v0 c.seen i = (v1, some c.status, c.dest) ∧
      s.val i = v1 i ∧ lastStatus s.trace i = some c.status ∧ (∀ x ∈ c.seen, x ∈ s.edges) ∧
      (c.status = .varying ∨
        ((∀ d, d ≠ i → Uses f.toProg i d → s.val d = v0 d ∨
            (f.isPhi i = true ∧ ∀ q, (d, q) ∈ f.args i → (q, b) ∉ s.edges)) ∧
         (f.isPhi i = true → ∀ a ∈ f.args i, (a.2, b) ∈ s.edges → (a.2, b) ∈ c.seen))) := by
  have hi : i ∈ f.insts b := (va.prog.block i b).mp hb
  obtain ⟨later, c, earlier, h1, h2, h3, h4⟩ := find_split (fin.settled.visited b hs i hi)
  have hc : c ∈ s.trace := by rw [h1]; simp
  have hl : lastStatus s.trace i = some c.status := by unfold lastStatus; rw [h4]; rfl
  have hr := fin.track.replay
  rw [h1] at hr
  obtain ⟨v1, hr1, -, hch⟩ := replay_split va fc later hr
  cases hr1 with
  | @cons _ v0 _ _ hr0 hv hsn ho hn hbb =>
    have g0 := replay_good va fc hr0
    obtain ⟨-, le, ch⟩ := g0.step fc hv hsn ho hn hbb
    rw [h2] at hv
    refine ⟨v0, v1, c, hc, h2, hv, ?_, hl, fin.track.seen c hc, ?_⟩
    · by_cases he : s.val i = v1 i
      · exact he
      · obtain ⟨l1, c2, l2, e1, e2, -⟩ := hch i he
        exact absurd e2 (h3 c2 (by rw [e1]; simp))
    · by_cases hvar : c.status = .varying
      · exact .inl hvar
      · refine .inr ⟨fun d hd hu => ?_, fun hp a ha he => ?_⟩
        · by_cases he : s.val d = v0 d
          · exact .inl he
          · have he1 : v1 d = v0 d := by
              by_cases h : v1 d = v0 d
              · exact h
              · exact absurd ((ch d h).1.trans h2) hd
            obtain ⟨l1, c2, l2, e1, e2, e3⟩ := hch d (by rw [he1]; exact he)
            have ht : s.trace = l1 ++ c2 :: (l2 ++ c :: earlier) := by rw [h1, e1]; simp
            rcases fin.settled.stable i d b hb hs hu _ _ _ ht e2 e3 with ⟨c', k1, k2⟩ | k | k
            · exact absurd k2 (h3 c' (by rw [e1]; simp [k1]))
            · rw [hl] at k; exact absurd (Option.some.inj k) hvar
            · exact .inr k
        · rcases fin.settled.phis i b hp hb hs with k | ⟨c', k1, k2⟩
          · rw [hl] at k; exact absurd (Option.some.inj k) hvar
          · rw [h4] at k1
            cases k1
            exact k2 a ha he

variable {s : State I B (Table I)} (va : Valid f) (fc : ∀ i m k, f.fold i m = some k → f.const k ≠ none) (fin : Final f s)
include va fc fin

theorem Final.good : Good f s.trace s.val := replay_good va fc fin.track.replay

theorem Final.varying {i : I} {b : B} (hb : f.block i = some b) (hr : (f.kind i).result = true)
    (h : lastStatus s.trace i = some .varying) : s.val i = some .varying :=
  (fin.good va fc).bottom i (by rw [hb]; simp) hr h

theorem Final.phi {i d : I} {b q : B} (hb : f.block i = some b) (hs : b ∈ s.simulated) (hk : f.kind i = .phi)
    (ha : (d, q) ∈ f.args i) (he : (q, b) ∈ s.edges) (hd : s.val d ≠ none) :
    s.val i = some .varying ∨ ∃ k, s.val d = some (.const k) ∧ s.val i = some (.const k) := by
  have hr : (f.kind i).result = true := by rw [hk]; rfl
  have hp : f.isPhi i = true := (va.phiKind i).mpr hk
  obtain ⟨v0, v1, c, hc, hci, hv, hvi, hl, hseen, hst⟩ := fin.visit va fc hb hs
  rcases hst with hst | ⟨hop, hsaw⟩
  · rw [hst] at hl; exact .inl (fin.varying va fc hb hr hl)
  · have hu : Uses f.toProg i d := by unfold Uses; rw [if_pos hp]; exact ⟨q, ha⟩
    have hex : d ≠ i → s.val d = v0 d := by
      intro hdi
      rcases hop d hdi hu with h | ⟨-, h⟩
      · exact h
      · exact absurd he (h q ha)
    have hes := hsaw hp (d, q) ha he
    rcases visit_result v0 c.seen i hr with ⟨h, hu⟩ | ⟨k, h, hu⟩ | h
    · rw [hv] at h
      simp only [Prod.mk.injEq, Option.some.injEq] at h
      obtain ⟨rfl, h1, -⟩ := h
      unfold Unknown at hu
      rw [hk] at hu
      have h2 := hu b hb (d, q) ha hes
      by_cases hdi : d = i
      · have : s.val i = none := (fin.good va fc).unknown i (by rw [hb]; simp) (.inr (.inl (by rw [hl, h1])))
        rw [hdi] at hd; exact absurd this hd
      · exact absurd ((hex hdi).trans h2) hd
    · rw [hv] at h
      simp only [Prod.mk.injEq, Option.some.injEq] at h
      obtain ⟨rfl, h1, -⟩ := h
      rw [set_self] at hvi
      unfold Source at hu
      rw [hk] at hu
      obtain ⟨b', hb', -, h2⟩ := hu
      have : b' = b := Option.some.inj (hb'.symm.trans hb)
      subst this
      refine .inr ⟨k, ?_, hvi⟩
      by_cases hdi : d = i
      · rw [hdi]; exact hvi
      · rcases h2 (d, q) ha hes with h3 | h3
        · exact absurd ((hex hdi).trans h3) hd
        · exact (hex hdi).trans h3
    · rw [hv] at h
      simp only [Prod.mk.injEq, Option.some.injEq] at h
      obtain ⟨rfl, h1, -⟩ := h
      exact .inl (by rw [hvi, set_self])

omit fc fin in
theorem uses_in {i d : I} (hk : f.kind i ≠ .phi) (hd : d ∈ f.inDefs i) : Uses f.toProg i d := by
  have : ¬ f.isPhi i = true := fun h => hk ((va.phiKind i).mp h)
  unfold Uses; rw [if_neg this]; exact hd

/-- For anything but a phi, the last visit saw the final values of the operands. -/
theorem Final.visit' {i : I} {b : B} (hb : f.block i = some b) (hs : b ∈ s.simulated) (hk : f.kind i ≠ .phi) :
    ∃ v0 v1 c, c ∈ s.trace ∧ c.inst = i ∧ f.visit v0 c.seen i = (v1, some c.status, c.dest) ∧
      s.val i = v1 i ∧ lastStatus s.trace i = some c.status ∧
      (c.status = .varying ∨ ∀ d ∈ f.inDefs i, s.val d = v0 d) := by
  have hp : f.isPhi i = false := by
    cases h : f.isPhi i with
    | false => rfl
    | true => exact absurd ((va.phiKind i).mp h) hk
  obtain ⟨v0, v1, c, hc, hci, hv, hvi, hl, hseen, hst⟩ := fin.visit va fc hb hs
  refine ⟨v0, v1, c, hc, hci, hv, hvi, hl, hst.imp id fun ⟨hop, _⟩ d hd => ?_⟩
  have hu := uses_in va hk hd
  have hdi : d ≠ i := fun e => no_self_use va.prog hb hp (by rw [← e]; rw [e] at hu ⊢; exact hu)
  rcases hop d hdi hu with h | ⟨h, -⟩
  · exact h
  · rw [hp] at h; cases h

theorem Final.copy {i src : I} {b : B} (hb : f.block i = some b) (hs : b ∈ s.simulated) (hk : f.kind i = .copy src)
    (hd : s.val src ≠ none) :
    s.val i = some .varying ∨ ∃ k, s.val src = some (.const k) ∧ s.val i = some (.const k) := by
  have hr : (f.kind i).result = true := by rw [hk]; rfl
  obtain ⟨v0, v1, c, hc, hci, hv, hvi, hl, hst⟩ := fin.visit' va fc hb hs (by rw [hk]; simp)
  rcases hst with hst | hop
  · rw [hst] at hl; exact .inl (fin.varying va fc hb hr hl)
  · have hsrc := hop src (va.copy i src hk)
    rcases visit_result v0 c.seen i hr with ⟨h, hu⟩ | ⟨k, h, hu⟩ | h
    · unfold Unknown at hu
      rw [hk] at hu
      exact absurd (hsrc.trans hu) hd
    · rw [hv] at h
      simp only [Prod.mk.injEq, Option.some.injEq] at h
      obtain ⟨rfl, h1, -⟩ := h
      rw [set_self] at hvi
      unfold Source at hu
      rw [hk] at hu
      exact .inr ⟨k, hsrc.trans hu.1, hvi⟩
    · rw [hv] at h
      simp only [Prod.mk.injEq, Option.some.injEq] at h
      obtain ⟨rfl, h1, -⟩ := h
      exact .inl (by rw [hvi, set_self])

theorem Final.fold {i : I} {b : B} (hb : f.block i = some b) (hs : b ∈ s.simulated) (hk : f.kind i = .foldable)
    (hd : ∀ d ∈ f.inDefs i, s.val d ≠ none) :
    s.val i = some .varying ∨ ∃ k m, s.val i = some (.const k) ∧ f.fold i m = some k ∧
      ∀ d ∈ f.inDefs i, m d = mapFunc s.val d := by
  have hr : (f.kind i).result = true := by rw [hk]; rfl
  obtain ⟨v0, v1, c, hc, hci, hv, hvi, hl, hst⟩ := fin.visit' va fc hb hs (by rw [hk]; simp)
  rcases hst with hst | hop
  · rw [hst] at hl; exact .inl (fin.varying va fc hb hr hl)
  · rcases visit_result v0 c.seen i hr with ⟨h, hu⟩ | ⟨k, h, hu⟩ | h
    · unfold Unknown at hu
      rw [hk] at hu
      obtain ⟨-, ⟨d, h1, h2⟩, -⟩ := hu
      exact absurd ((hop d h1).trans h2) (hd d h1)
    · rw [hv] at h
      simp only [Prod.mk.injEq, Option.some.injEq] at h
      obtain ⟨rfl, h1, -⟩ := h
      rw [set_self] at hvi
      unfold Source at hu
      rw [hk] at hu
      exact .inr ⟨k, mapFunc v0, hvi, hu.1, fun d hd => by unfold mapFunc; rw [hop d hd]⟩
    · rw [hv] at h
      simp only [Prod.mk.injEq, Option.some.injEq] at h
      obtain ⟨rfl, h1, -⟩ := h
      exact .inl (by rw [hvi, set_self])

theorem Final.assign {i : I} {b : B} (hb : f.block i = some b) (hs : b ∈ s.simulated) (hk : f.kind i = .assign) :
    s.val i = some .varying := by
  obtain ⟨v0, v1, c, hc, hci, hv, hvi, hl, hst⟩ := fin.visit' va fc hb hs (by rw [hk]; simp)
  unfold Func.visit markVarying at hv
  rw [hk] at hv
  simp only [Prod.mk.injEq, Option.some.injEq] at hv
  obtain ⟨rfl, h1, -⟩ := hv
  rw [hvi, set_self]

theorem Final.br {i : I} {b t : B} (hb : f.block i = some b) (hs : b ∈ s.simulated) (hk : f.kind i = .br t) :
    (b, t) ∈ s.edges := by
  obtain ⟨v0, v1, c, hc, hci, hv, hvi, hl, hst⟩ := fin.visit' va fc hb hs (by rw [hk]; simp)
  unfold Func.visit at hv
  rw [hk] at hv
  simp only [Prod.mk.injEq, Option.some.injEq] at hv
  obtain ⟨-, h1, h2⟩ := hv
  exact fin.settled.chosen c hc b t h1.symm h2.symm (by rw [hci]; exact hb) (va.br i t hk).2.1

omit va fc in
theorem Final.allOut {i : I} {b d : B} (hb : f.block i = some b) (ht : f.terminator i = true)
    (hl : lastStatus s.trace i = some .varying) (hd : d ∈ f.succs b) (hx : d ≠ f.pseudoExit) : (b, d) ∈ s.edges :=
  fin.settled.allOut b i hb ht hl d hd hx

theorem Final.cond {i c : I} {b t e : B} (hb : f.block i = some b) (hs : b ∈ s.simulated) (hk : f.kind i = .cond c t e) :
    ((b, t) ∈ s.edges ∧ (b, e) ∈ s.edges) ∨ ∃ k, s.val c = some (.const k) ∧
      ((f.const k = some .null ∧ (b, e) ∈ s.edges) ∨
       ∃ x, f.const k = some (.bool x) ∧ (b, if x then t else e) ∈ s.edges) := by
  obtain ⟨hin, hterm, ht, he, hsu⟩ := va.cond i c t e hk
  have hsu := hsu b hb
  obtain ⟨v0, v1, cl, hc, hci, hv, hvi, hl, hst⟩ := fin.visit' va fc hb hs (by rw [hk]; simp)
  by_cases hst' : cl.status = .varying
  · rw [hst'] at hl
    exact .inl ⟨fin.allOut hb hterm hl hsu.1 ht, fin.allOut hb hterm hl hsu.2 he⟩
  · have hop := hst.resolve_left hst' c hin
    unfold Func.visit at hv
    rw [hk] at hv
    dsimp only at hv
    rw [← hop] at hv
    cases hvc : s.val c with
    | none => rw [hvc] at hv; simp only [Prod.mk.injEq, Option.some.injEq] at hv; exact absurd hv.2.1.symm hst'
    | some x =>
      cases x with
      | varying => rw [hvc] at hv; simp only [Prod.mk.injEq, Option.some.injEq] at hv; exact absurd hv.2.1.symm hst'
      | const k =>
        rw [hvc] at hv
        dsimp only at hv
        have go : ∀ {d : B}, cl.status = .interesting → cl.dest = some d → d ≠ f.pseudoExit → (b, d) ∈ s.edges :=
          fun h1 h2 h3 => fin.settled.chosen cl hc b _ h1 h2 (by rw [hci]; exact hb) h3
        refine .inr ⟨k, rfl, ?_⟩
        cases hck : f.const k with
        | none => rw [hck] at hv; simp at hv
        | some y =>
          cases y with
          | int => rw [hck] at hv; simp at hv
          | other => rw [hck] at hv; simp at hv
          | null =>
            rw [hck] at hv
            simp only [Prod.mk.injEq, Option.some.injEq] at hv
            exact .inl ⟨rfl, go hv.2.1.symm hv.2.2.symm he⟩
          | bool x =>
            rw [hck] at hv
            simp only [Prod.mk.injEq, Option.some.injEq] at hv
            exact .inr ⟨x, rfl, go hv.2.1.symm hv.2.2.symm (by cases x <;> assumption)⟩

omit va fc fin in
theorem findCase_mem (n : Nat) (dflt : B) : ∀ cases : List (Nat × B),
    findCase n dflt cases = dflt ∨ findCase n dflt cases ∈ cases.map (·.2)
  | [] => .inl rfl
  | (l, b) :: rest => by
    unfold findCase
    split
    · exact .inr (by simp)
    · exact (findCase_mem n dflt rest).imp id fun h => List.mem_cons_of_mem _ h

theorem Final.switch {i sel : I} {b dflt : B} {cases : List (Nat × B)} (hb : f.block i = some b)
    (hs : b ∈ s.simulated) (hk : f.kind i = .switch sel dflt cases) :
    (∀ t, t = dflt ∨ t ∈ cases.map (·.2) → (b, t) ∈ s.edges) ∨ ∃ k, s.val sel = some (.const k) ∧
      ((f.const k = some .null ∧ (b, findCase 0 dflt cases) ∈ s.edges) ∨
       ∃ n, f.const k = some (.int n) ∧ (b, findCase (n % 2 ^ 32) dflt cases) ∈ s.edges) := by
  obtain ⟨hin, hterm, ht⟩ := va.switch i sel dflt cases hk
  obtain ⟨v0, v1, cl, hc, hci, hv, hvi, hl, hst⟩ := fin.visit' va fc hb hs (by rw [hk]; simp)
  by_cases hst' : cl.status = .varying
  · rw [hst'] at hl
    exact .inl fun t h => fin.allOut hb hterm hl ((ht t h).2 b hb) (ht t h).1
  · have hop := hst.resolve_left hst' sel hin
    unfold Func.visit at hv
    rw [hk] at hv
    dsimp only at hv
    rw [← hop] at hv
    cases hvc : s.val sel with
    | none => rw [hvc] at hv; simp only [Prod.mk.injEq, Option.some.injEq] at hv; exact absurd hv.2.1.symm hst'
    | some x =>
      cases x with
      | varying => rw [hvc] at hv; simp only [Prod.mk.injEq, Option.some.injEq] at hv; exact absurd hv.2.1.symm hst'
      | const k =>
        rw [hvc] at hv
        dsimp only at hv
        have go : ∀ {n : Nat}, cl.status = .interesting → cl.dest = some (findCase n dflt cases) →
            (b, findCase n dflt cases) ∈ s.edges :=
          fun h1 h2 => fin.settled.chosen cl hc b _ h1 h2 (by rw [hci]; exact hb) (ht _ (findCase_mem _ _ _)).1
        refine .inr ⟨k, rfl, ?_⟩
        cases hck : f.const k with
        | none => rw [hck] at hv; simp at hv
        | some y =>
          cases y with
          | bool => rw [hck] at hv; simp at hv
          | other => rw [hck] at hv; simp at hv
          | null =>
            rw [hck] at hv
            simp only [Prod.mk.injEq, Option.some.injEq] at hv
            exact .inl ⟨rfl, go hv.2.1.symm hv.2.2.symm⟩
          | int n =>
            rw [hck] at hv
            simp only [Prod.mk.injEq, Option.some.injEq] at hv
            exact .inr ⟨n, rfl, go hv.2.1.symm hv.2.2.symm⟩

end Verif.Ccp
