import Verif.CodeSink.Move

/-!
# Lemmas: runs before and after a move (C71)
-/

set_option linter.unusedSimpArgs false
set_option linter.unusedVariables false
set_option linter.unusedSectionVars false

namespace Verif.CodeSink.Spec
open Verif.IfConv Verif.IfConv.Spec

variable {V M : Type} {S : Sem V M} {fn : Fn} {o t : Lab} {d : Id} {ops : List Id}

theorem reads_congr {e e' : Env V} {ids xs} (h : ∀ x ∈ ids, e' x = e x) (hr : Reads e ids xs) :
    Reads e' ids xs := by
  unfold Reads at *
  rw [← hr]
  exact List.map_congr_left h

/-- Executing instructions that do not mention `d`. -/
theorem exec_agree {is : List Inst} {e m e1 m1} (h : Exec S is e m e1 m1) : ∀ {e' : Env V},
    (∀ x, x ≠ d → e' x = e x) → (∀ i ∈ is, d ∉ reads i) → d ∉ is.map instId →
    ∃ e1', Exec S is e' m e1' m1 ∧ (∀ x, x ≠ d → e1' x = e1 x) ∧ e1' d = e' d := by
  induction h with
  | nil => intro e' h _ _; exact ⟨e', .nil, h, rfl⟩
  | @op i ops is e m xs x m1 e2 m2 hr ha hx ih =>
    intro e' h hu hd
    simp only [List.map_cons, instId, List.mem_cons, not_or] at hd
    obtain ⟨e1', h1, h2, h3⟩ := ih (e' := define e' i x) (by
      intro y hy
      simp only [define]
      split
      · rfl
      · exact h y hy) (fun j hj => hu j (List.mem_cons_of_mem _ hj)) hd.2
    refine ⟨e1', .op (reads_congr (fun y hy => h y ?_) hr) ha h1, h2, ?_⟩
    · rintro rfl; exact hu _ List.mem_cons_self hy
    · rw [h3]; simp [define, hd.1]
  | @select i c tt f is e m vc vt vf e2 m2 hc ht hf hx ih =>
    intro e' h hu hd
    simp only [List.map_cons, instId, List.mem_cons, not_or] at hd
    have hu' := hu _ List.mem_cons_self
    simp only [reads, List.mem_cons, List.not_mem_nil, or_false, not_or] at hu'
    obtain ⟨e1', h1, h2, h3⟩ := ih (e' := define e' i (if S.truth vc then vt else vf)) (by
      intro y hy
      simp only [define]
      split
      · rfl
      · exact h y hy) (fun j hj => hu j (List.mem_cons_of_mem _ hj)) hd.2
    refine ⟨e1', .select ?_ ?_ ?_ h1, h2, ?_⟩
    · rw [h c (Ne.symm hu'.1)]; exact hc
    · rw [h tt (Ne.symm hu'.2.1)]; exact ht
    · rw [h f (Ne.symm hu'.2.2)]; exact hf
    · rw [h3]; simp [define, hd.1]

theorem exec_append {pre post : List Inst} {e m e2 m2} : Exec S (pre ++ post) e m e2 m2 ↔
    ∃ e1 m1, Exec S pre e m e1 m1 ∧ Exec S post e1 m1 e2 m2 := by
  constructor
  · intro h
    induction pre generalizing e m with
    | nil => exact ⟨e, m, .nil, h⟩
    | cons i pre ih =>
      cases h with
      | op h1 h2 h3 =>
        obtain ⟨e1, m1, k1, k2⟩ := ih h3
        exact ⟨e1, m1, .op h1 h2 k1, k2⟩
      | select h1 h2 h3 h4 =>
        obtain ⟨e1, m1, k1, k2⟩ := ih h4
        exact ⟨e1, m1, .select h1 h2 h3 k1, k2⟩
  · rintro ⟨e1, m1, h1, h2⟩
    induction h1 with
    | nil => exact h2
    | op k1 k2 _ ih => exact .op k1 k2 (ih h2)
    | select k1 k2 k3 _ ih => exact .select k1 k2 k3 (ih h2)

theorem goes_congr {e e' : Env V} {m : M} {T b} (h : ∀ x ∈ termReads T, e' x = e x)
    (hg : Goes S e m T b) : Goes S e' m T b := by
  cases hg with
  | br => exact .br
  | cond hc => exact .cond (by rw [h _ (by simp [termReads])]; exact hc)
  | multi hr hj hb => exact .multi (reads_congr h hr) hj hb

/-- `t` has been visited since the last visit of `o`. -/
def Cur (o t : Lab) (l : List Lab) : Prop := ∃ u r, l = u ++ t :: r ∧ o ∉ u

theorem cur_cons {b l} (hbo : b ≠ o) (hbt : b ≠ t) (h : Cur o t (b :: l)) : Cur o t l := by
  obtain ⟨u, r, e, hu⟩ := h
  cases u with
  | nil => simp at e; exact absurd e.1 hbt
  | cons x u =>
    simp at e
    exact ⟨u, r, e.2, fun h => hu (List.mem_cons_of_mem _ h)⟩

theorem not_cur (hne : t ≠ o) {l} (h : Cur o t (o :: l)) : False := by
  obtain ⟨u, r, e, hu⟩ := h
  cases u with
  | nil => simp at e; exact hne e.1.symm
  | cons x u => simp at e; exact hu (by rw [e.1]; simp)

/-- On arrival at a block below `t`, `t` has been visited since the last `o`. -/
theorem Moved.cur (h : Moved fn o t d ops) {b l} (hp : Path fn (b :: l)) (hd : Dominates fn t b) :
    Cur o t (b :: l) := by
  by_cases hbt : b = t
  · subst hbt; exact ⟨[], l, rfl, by simp⟩
  · rcases hp.last t rfl (hd l hp) with e | ⟨x, w, rest, e, hx, hw, hn⟩
    · exact absurd e hbt
    · refine ⟨w, rest, e, ?_⟩
      have hr : Reachable fn t := ⟨rest, hp.suffix e⟩
      exact strict_not_on h.dom hr hd hw hn

/-! ### The value of `d` -/

/-- Back to the last visit of `o`. -/
theorem reach_back {l} {c : Config V M} (h : Reach S fn l c) : ∀ {u r}, l = u ++ o :: r →
    ∃ c0, Reach S fn (o :: r) c0 ∧ c0.block = o ∧
      ∀ x, (∀ b ∈ u, x ∉ defs (fn.block b)) → c.env x = c0.env x := by
  induction h with
  | @start c hb =>
    intro u r e
    cases u with
    | nil =>
      simp at e
      obtain ⟨e1, e2⟩ := e
      subst e2
      refine ⟨c, ?_, hb.1.trans e1, fun _ _ => rfl⟩
      rw [← e1]; exact .start hb
    | cons y u => simp at e
  | @step l c c' hr hs ih =>
    intro u r e
    cases u with
    | nil =>
      simp at e
      obtain ⟨e1, e2⟩ := e
      refine ⟨c', ?_, e1, fun _ _ => rfl⟩
      rw [← e1, ← e2]; exact .step hr hs
    | cons y u =>
      simp at e
      obtain ⟨c0, h1, h2, h3⟩ := ih e.2
      refine ⟨c0, h1, h2, fun x hx => ?_⟩
      rw [hs.env_same x (by rw [e.1]; exact hx y (by simp))]
      exact h3 x (fun b hb => hx b (by simp [hb]))

/-- At the end of `o`. -/
theorem Moved.val_o (h : Moved fn o t d ops) (hv : Valid S fn) {F : List V → V}
    (hF : ∀ xs m x m', S.act d xs m x m' ↔ x = F xs ∧ m' = m) {e m e1 m1}
    (hx : Exec S (fn.block o).body e m e1 m1) :
    ∃ xs, Reads e1 ops xs ∧ e1 d = some (F xs) := by
  obtain ⟨pre, post, e0, _, _⟩ := h.split
  have hn := hv.nodup o
  unfold defs at hn
  rw [e0] at hx
  obtain ⟨ea, ma, k1, k2⟩ := exec_append.1 hx
  have hds := h.d_split hv e0
  cases k2 with
  | @op _ _ _ _ _ xs x mb _ _ hr ha hp =>
    obtain ⟨rfl, rfl⟩ := (hF _ _ _ _).1 ha
    refine ⟨xs, reads_congr (fun y hy => ?_) hr, ?_⟩
    · obtain ⟨hyd, hy'⟩ := h.ops_ready hv e0 hy
      have hnp : y ∉ post.map instId := by
        rw [e0, List.map_append, List.map_cons] at hn
        have h1 := List.nodup_append.1 hn
        have h2 := List.nodup_append.1 h1.2.1
        intro hp'
        rcases hy' with h' | h' | ⟨_, h'⟩ | ⟨b', h', h'', _⟩
        · exact h1.2.2 y h' y (by simp [hp']) rfl
        · exact h2.2.2 y h' y (by simp [hp']) rfl
        · exact h' o (List.mem_append_right _ (by rw [e0]; simp [hp']))
        · exact h' (hv.once y b' o h'' (List.mem_append_right _ (by rw [e0]; simp [hp'])))
      rw [hp.same y hnp]
      simp [define, hyd]
    · rw [hp.same d hds.2.2]; simp [define]

theorem Moved.val_end (h : Moved fn o t d ops) (hv : Valid S fn) {F : List V → V}
    (hF : ∀ xs m x m', S.act d xs m x m' ↔ x = F xs ∧ m' = m) {r} {c : Config V M}
    (hr : Reach S fn (o :: r) c) (hb : c.block = o) :
    ∃ xs, Reads c.env ops xs ∧ c.env d = some (F xs) := by
  generalize e : o :: r = l at hr
  cases hr with
  | start hbeg =>
    have hx := hbeg.2
    rw [← hbeg.1, hb] at hx
    exact h.val_o hv hF hx
  | step hr hs =>
    cases hs with
    | mk hg hp hx =>
      simp only at hb
      subst hb
      exact h.val_o hv hF hx

/-- Operands are not defined on the way from the last `o` to a block below it. -/
theorem Moved.ops_still (h : Moved fn o t d ops) (hv : Valid S fn) {x y q w} (hx : x ∈ ops)
    (hw : Walk fn y q w) (hno : o ∉ w) (hd : Dominates fn o q) : ∀ b ∈ w, x ∉ defs (fn.block b) := by
  intro b hb hxb
  obtain ⟨pre, post, e0, _, _⟩ := h.split
  obtain ⟨_, hr⟩ := h.ops_ready hv e0 hx
  have hin : x ∈ defs (fn.block o) → False := fun h' => hno (by
    rw [← hv.once x b o hxb h']; exact hb)
  rcases hr with h' | h' | ⟨_, h'⟩ | ⟨b', h1, h2, h3⟩
  · exact hin (List.mem_append_left _ h')
  · exact hin (List.mem_append_right _ (by rw [e0, List.map_append]; exact List.mem_append_left _ h'))
  · exact h' b hxb
  · have : b = b' := hv.once x b b' hxb h2
    subst this
    exact strict_not_on h3 h.reach hd hw hno hb

/-- The value of `d` on arrival at `t`. -/
theorem Moved.val_t (h : Moved fn o t d ops) (hv : Valid S fn) {F : List V → V}
    (hF : ∀ xs m x m', S.act d xs m x m' ↔ x = F xs ∧ m' = m) {l} {c : Config V M}
    (hr : Reach S fn l c) (hs : t ∈ fn.succs c.block) :
    ∃ xs, Reads c.env ops xs ∧ c.env d = some (F xs) ∧ ∀ x ∈ ops, x ∉ defs (fn.block t) := by
  obtain ⟨hp, l', rfl⟩ := hr.path
  have hpt := hp.next hs
  rcases hpt.last o rfl (h.dom _ hpt) with e | ⟨x, w, rest, e, hx, hw, hn⟩
  · exact absurd e h.ne
  · obtain ⟨w', rfl⟩ := hw.head
    simp only [List.cons_append, List.cons.injEq, true_and] at e
    obtain ⟨c0, h1, h2, h3⟩ := reach_back hr e
    obtain ⟨xs, k1, k2⟩ := h.val_end hv hF h1 h2
    have hst : ∀ y ∈ ops, ∀ b ∈ t :: w', y ∉ defs (fn.block b) := fun y hy => h.ops_still hv hy hw hn h.dom
    refine ⟨xs, reads_congr (fun y hy => h3 y fun b hb => hst y hy b (List.mem_cons_of_mem _ hb)) k1, ?_, 
      fun y hy => hst y hy t (by simp)⟩
    rw [h3 d, k2]
    intro b hb hd
    have := h.d_once hv hd
    subst this
    exact hn (List.mem_cons_of_mem _ hb)

/-! ### Simulation -/

/-- Configurations of the function and of the function with `d` moved. -/
structure Sim (o t : Lab) (d : Id) (l : List Lab) (c c' : Config V M) : Prop where
  block : c'.block = c.block
  mem : c'.mem = c.mem
  env : ∀ x, x ≠ d → c'.env x = c.env x
  cur : Cur o t l → c'.env d = c.env d

theorem Sim.reads (h : Moved fn o t d ops) {l} {c c' : Config V M} (hs : Sim o t d (c.block :: l) c c')
    (hp : Path fn (c.block :: l)) : ∀ x ∈ termReads (fn.block c.block).term, c'.env x = c.env x := by
  intro x hx
  by_cases hd : x = d
  · subst hd; exact hs.cur (h.cur hp (h.useTerm _ hx))
  · exact hs.env x hd

theorem Sim.phi (h : Moved fn o t d ops) {l} {c c' : Config V M} (hs : Sim o t d (c.block :: l) c c')
    (hp : Path fn (c.block :: l)) {b φ} (hφ : φ ∈ (fn.block b).phis) :
    phiVal c'.env c.block φ = phiVal c.env c.block φ := by
  unfold phiVal
  split
  · rename_i a ha
    have h1 := List.mem_of_find?_eq_some ha
    have h2 := List.find?_some ha
    simp only [decide_eq_true_eq] at h2
    by_cases hd : a.1 = d
    · rw [hd]
      exact hs.cur (h.cur hp (h.usePhi b φ hφ c.block (by rw [← hd, ← h2]; exact h1)))
    · exact hs.env _ hd
  · rfl

theorem Sim.phiEnv (h : Moved fn o t d ops) (hv : Valid S fn) {l} {c c' : Config V M}
    (hs : Sim o t d (c.block :: l) c c') (hp : Path fn (c.block :: l)) (b : Lab) :
    (∀ x, x ≠ d → phiEnv c'.env c.block (fn.block b).phis x = phiEnv c.env c.block (fn.block b).phis x) ∧
    phiEnv c'.env c.block (fn.block b).phis d = c'.env d ∧ phiEnv c.env c.block (fn.block b).phis d = c.env d := by
  have hnd : d ∉ (fn.block b).phis.map Phi.id := by
    intro hd
    have := h.d_once hv (List.mem_append_left _ hd)
    subst this
    obtain ⟨pre, post, e0, _, _⟩ := h.split
    exact (h.d_split hv e0).1 hd
  refine ⟨fun x hx => ?_, phiEnv_same d hnd, phiEnv_same d hnd⟩
  unfold IfConv.Spec.phiEnv
  split
  · rename_i φ hφ
    exact hs.phi h hp (List.mem_of_find?_eq_some hφ)
  · exact hs.env x hx

theorem Moved.no_use_o (h : Moved fn o t d ops) : ∀ i ∈ (fn.block o).body, d ∉ reads i :=
  fun i hi hd => h.not_dom (h.useBody o i hi hd)

/-- The body of `o`, forward. -/
theorem Moved.body_o_fwd (h : Moved fn o t d ops) (hv : Valid S fn) {F : List V → V}
    (hF : ∀ xs m x m', S.act d xs m x m' ↔ x = F xs ∧ m' = m) {e e' : Env V} {m e1 m1}
    (he : ∀ x, x ≠ d → e' x = e x) (hx : Exec S (fn.block o).body e m e1 m1) :
    ∃ e1', Exec S ((move fn o t (.op d ops)).block o).body e' m e1' m1 ∧ ∀ x, x ≠ d → e1' x = e1 x := by
  obtain ⟨pre, post, e0, _, e2⟩ := h.split
  have hds := h.d_split hv e0
  have hu := h.no_use_o
  rw [h.body_o, e2]
  rw [e0] at hx hu
  obtain ⟨ea, ma, k1, k2⟩ := exec_append.1 hx
  obtain ⟨ea', h1, h2, _⟩ := exec_agree k1 he (fun i hi => hu i (by simp [hi])) hds.2.1
  cases k2 with
  | @op _ _ _ _ _ xs x mb _ _ hr ha hp =>
    obtain ⟨rfl, rfl⟩ := (hF _ _ _ _).1 ha
    obtain ⟨e1', h3, h4, _⟩ := exec_agree (d := d) hp (e' := ea') (by
      intro x hx'
      rw [h2 x hx']; simp [define, hx']) (fun i hi => hu i (by simp [hi])) hds.2.2
    exact ⟨e1', exec_append.2 ⟨_, _, h1, h3⟩, h4⟩

/-- The body of `o`, backward. The operands have values. -/
theorem Moved.body_o_bwd (h : Moved fn o t d ops) (hv : Valid S fn) {F : List V → V}
    (hF : ∀ xs m x m', S.act d xs m x m' ↔ x = F xs ∧ m' = m) {e e' : Env V} {m e1' m1}
    (he : ∀ x, x ≠ d → e' x = e x)
    (hdef : ∀ x, x ∈ (fn.block o).phis.map Phi.id ∨ Outside S fn x o → e x ≠ none)
    (hx : Exec S ((move fn o t (.op d ops)).block o).body e' m e1' m1) :
    ∃ e1, Exec S (fn.block o).body e m e1 m1 ∧ ∀ x, x ≠ d → e1' x = e1 x := by
  obtain ⟨pre, post, e0, _, e2⟩ := h.split
  have hds := h.d_split hv e0
  have hu := h.no_use_o
  rw [h.body_o, e2] at hx
  rw [e0] at hu
  obtain ⟨ea', ma, k1, k2⟩ := exec_append.1 hx
  obtain ⟨ea, h1, h2, _⟩ := exec_agree k1 (e' := e) (fun x hx => (he x hx).symm)
    (fun i hi => hu i (by simp [hi])) hds.2.1
  have hvals : ∃ xs, Reads ea ops xs := by
    have hall : ∀ x ∈ ops, ea x ≠ none := by
      intro x hx
      obtain ⟨hxd, hx'⟩ := h.ops_ready hv e0 hx
      refine h1.defined x ?_
      rcases hx' with h' | h' | h'
      · exact .inr (hdef x (.inl h'))
      · exact .inl h'
      · exact .inr (hdef x (.inr h'))
    clear hu hds e0 e2 hx
    generalize ops = L at hall
    induction L with
    | nil => exact ⟨[], rfl⟩
    | cons y L ih =>
      obtain ⟨xs, ih⟩ := ih (fun x hx => hall x (List.mem_cons_of_mem _ hx))
      cases hy : ea y with
      | none => exact absurd hy (hall y (by simp))
      | some v => exact ⟨v :: xs, by unfold Reads at *; simp [hy, ih]⟩
  obtain ⟨xs, hxs⟩ := hvals
  obtain ⟨e1, h3, h4, _⟩ := exec_agree (d := d) k2 (e' := define ea d (F xs)) (by
    intro x hx'
    simp [define, hx', h2 x hx']) (fun i hi => hu i (by simp [hi])) hds.2.2
  refine ⟨e1, ?_, fun x hx => (h4 x hx).symm⟩
  rw [e0]
  exact exec_append.2 ⟨_, _, h1, .op hxs ((hF _ _ _ _).2 ⟨rfl, rfl⟩) h3⟩

/-- Both bodies on arrival in block `b`: forward. -/
theorem Moved.arrive (h : Moved fn o t d ops) (hv : Valid S fn) {F : List V → V}
    (hF : ∀ xs m x m', S.act d xs m x m' ↔ x = F xs ∧ m' = m) {l} {c c' : Config V M}
    (hr : Reach S fn (c.block :: l) c) (hs : Sim o t d (c.block :: l) c c') {b} (hb : b ∈ fn.succs c.block) :
    (∀ e1 m1, Exec S (fn.block b).body (IfConv.Spec.phiEnv c.env c.block (fn.block b).phis) c.mem e1 m1 →
      ∃ e1', Exec S ((move fn o t (.op d ops)).block b).body
        (IfConv.Spec.phiEnv c'.env c.block (fn.block b).phis) c.mem e1' m1 ∧
        Sim o t d (b :: c.block :: l) ⟨b, e1, m1⟩ ⟨b, e1', m1⟩) ∧
    ((∀ φ ∈ (fn.block b).phis, phiVal c.env c.block φ ≠ none) →
      ∀ e1' m1, Exec S ((move fn o t (.op d ops)).block b).body
        (IfConv.Spec.phiEnv c'.env c.block (fn.block b).phis) c.mem e1' m1 →
      ∃ e1, Exec S (fn.block b).body (IfConv.Spec.phiEnv c.env c.block (fn.block b).phis) c.mem e1 m1 ∧
        Sim o t d (b :: c.block :: l) ⟨b, e1, m1⟩ ⟨b, e1', m1⟩) := by
  have hp := hr.path.1
  obtain ⟨hE, hE', hE2⟩ := hs.phiEnv h hv hp b
  by_cases hbo : b = o
  · subst hbo
    constructor
    · intro e1 m1 hx
      obtain ⟨e1', k1, k2⟩ := h.body_o_fwd hv hF hE hx
      exact ⟨e1', k1, rfl, rfl, k2, fun hc => (not_cur h.ne hc).elim⟩
    · intro hphi e1' m1 hx
      obtain ⟨e1, k1, k2⟩ := h.body_o_bwd hv hF hE (by
        intro x hx'
        rcases hx' with hx' | hx'
        · exact phiEnv_defined hphi x (.inl hx')
        · refine phiEnv_defined hphi x (.inr ?_)
          refine hr.defined hv.toValid x ?_
          rcases hx' with hx' | ⟨b', h1, h2, h3⟩
          · exact .inl hx'.1
          · refine .inr ⟨b', ?_, h2⟩
            have := h3 _ (hp.next hb)
            simpa [h1] using this) hx
      exact ⟨e1, k1, rfl, rfl, k2, fun hc => (not_cur h.ne hc).elim⟩
  · by_cases hbt : b = t
    · subst hbt
      obtain ⟨xs, k1, k2, k3⟩ := h.val_t hv hF hr hb
      rw [h.body_t]
      have hops : ∀ x ∈ ops, IfConv.Spec.phiEnv c'.env c.block (fn.block b).phis x = c.env x := by
        intro x hx
        obtain ⟨pre, post, e0, _, _⟩ := h.split
        rw [hE x (h.ops_ready hv e0 hx).1]
        exact phiEnv_same x (fun h' => k3 x hx (List.mem_append_left _ h'))
      have hrd := reads_congr hops k1
      have henv : define (IfConv.Spec.phiEnv c'.env c.block (fn.block b).phis) d (F xs) =
          IfConv.Spec.phiEnv c.env c.block (fn.block b).phis := by
        funext x
        simp only [define]
        split
        · rename_i e; subst e; rw [hE2, k2]
        · rename_i e; exact hE x e
      constructor
      · intro e1 m1 hx
        exact ⟨e1, .op hrd ((hF _ _ _ _).2 ⟨rfl, rfl⟩) (by rw [henv]; exact hx), rfl, rfl, fun _ _ => rfl,
          fun _ => rfl⟩
      · intro _ e1' m1 hx
        cases hx with
        | @op _ _ _ _ _ xs' x mb _ _ hr' ha hp' =>
          obtain ⟨rfl, rfl⟩ := (hF _ _ _ _).1 ha
          have : xs' = xs := by
            unfold Reads at hrd hr'
            rw [hrd] at hr'
            exact (List.map_inj_right (fun _ _ h => Option.some.inj h)).1 hr'.symm
          subst this
          rw [henv] at hp'
          exact ⟨e1', hp', rfl, rfl, fun _ _ => rfl, fun _ => rfl⟩
    · rw [h.body_other hbo hbt]
      have hdb : d ∉ (fn.block b).body.map instId := fun hd =>
        hbo (h.d_once hv (List.mem_append_right _ hd))
      by_cases hu : ∃ i ∈ (fn.block b).body, d ∈ reads i
      · obtain ⟨i, hi, hd⟩ := hu
        have hcur := hs.cur (cur_cons hbo hbt (h.cur (hp.next hb) (h.useBody b i hi hd)))
        have henv : IfConv.Spec.phiEnv c'.env c.block (fn.block b).phis =
            IfConv.Spec.phiEnv c.env c.block (fn.block b).phis := by
          funext x
          by_cases hx : x = d
          · subst hx; rw [hE', hE2, hcur]
          · exact hE x hx
        rw [henv]
        exact ⟨fun e1 m1 hx => ⟨e1, hx, rfl, rfl, fun _ _ => rfl, fun _ => rfl⟩,
          fun _ e1 m1 hx => ⟨e1, hx, rfl, rfl, fun _ _ => rfl, fun _ => rfl⟩⟩
      · have hu' : ∀ i ∈ (fn.block b).body, d ∉ reads i := fun i hi hd => hu ⟨i, hi, hd⟩
        constructor
        · intro e1 m1 hx
          obtain ⟨e1', k1, k2, k3⟩ := exec_agree hx hE hu' hdb
          refine ⟨e1', k1, rfl, rfl, k2, fun hc => ?_⟩
          simp only
          rw [k3, hE', hs.cur (cur_cons hbo hbt hc), hx.same d hdb, hE2]
        · intro _ e1' m1 hx
          obtain ⟨e1, k1, k2, k3⟩ := exec_agree hx (fun x hx => (hE x hx).symm) hu' hdb
          refine ⟨e1, k1, rfl, rfl, fun x hx => (k2 x hx).symm, fun hc => ?_⟩
          simp only
          rw [k3, hE2, ← hs.cur (cur_cons hbo hbt hc), hx.same d hdb, hE']

/-- The first block. -/
theorem Moved.begin (h : Moved fn o t d ops) (hv : Valid S fn) {F : List V → V}
    (hF : ∀ xs m x m', S.act d xs m x m' ↔ x = F xs ∧ m' = m) :
    (∀ c, Begins S fn c → ∃ c', Begins S (move fn o t (.op d ops)) c' ∧ Sim o t d [fn.entry] c c') ∧
    (∀ c', Begins S (move fn o t (.op d ops)) c' → ∃ c, Begins S fn c ∧ Sim o t d [fn.entry] c c') := by
  have het : fn.entry ≠ t := by
    intro e
    have := h.dom [] (by rw [← e]; exact .entry)
    simp at this
    exact h.ne this.symm
  by_cases heo : fn.entry = o
  · have hno : ¬ Cur o t [fn.entry] := fun hc => by
      rw [heo] at hc; exact not_cur h.ne hc
    constructor
    · rintro ⟨b, e1, m1⟩ ⟨hb, hx⟩
      simp only at hb hx
      rw [heo] at hx
      obtain ⟨e1', k1, k2⟩ := h.body_o_fwd hv hF (fun _ _ => rfl) hx
      exact ⟨⟨b, e1', m1⟩, ⟨hb, by show Exec S ((move fn o t _).block fn.entry).body _ _ _ _; rw [heo]; exact k1⟩,
        rfl, rfl, k2, fun hc => (hno hc).elim⟩
    · rintro ⟨b, e1', m1⟩ ⟨hb, hx⟩
      replace hx : Exec S ((move fn o t (.op d ops)).block fn.entry).body S.start S.mem e1' m1 := hx
      rw [heo] at hx
      obtain ⟨e1, k1, k2⟩ := h.body_o_bwd hv hF (e := S.start) (fun _ _ => rfl) (by
        intro x hx'
        rcases hx' with hx' | hx' | ⟨b', h1, h2, h3⟩
        · rw [← heo, hv.entry_phis] at hx'; simp at hx'
        · exact hx'.1
        · have := h3 [] (by rw [← heo]; exact .entry)
          simp at this; exact absurd this h1) hx
      exact ⟨⟨b, e1, m1⟩, ⟨hb, by simp only; rw [heo]; exact k1⟩, rfl, rfl, k2, fun hc => (hno hc).elim⟩
  · have hbl : (move fn o t (.op d ops)).block fn.entry = fn.block fn.entry := h.body_other heo het
    constructor
    · rintro c ⟨hb, hx⟩
      refine ⟨c, ⟨hb, ?_⟩, rfl, rfl, fun _ _ => rfl, fun _ => rfl⟩
      show Exec S ((move fn o t (.op d ops)).block fn.entry).body _ _ _ _
      rw [hbl]; exact hx
    · rintro c ⟨hb, hx⟩
      refine ⟨c, ⟨hb, ?_⟩, rfl, rfl, fun _ _ => rfl, fun _ => rfl⟩
      replace hx : Exec S ((move fn o t (.op d ops)).block fn.entry).body S.start S.mem c.env c.mem := hx
      rw [hbl] at hx; exact hx

theorem Moved.runs (h : Moved fn o t d ops) (hv : Valid S fn) {F : List V → V}
    (hF : ∀ xs m x m', S.act d xs m x m' ↔ x = F xs ∧ m' = m) :
    (∀ l c, Reach S fn l c → ∃ c', Reach S (move fn o t (.op d ops)) l c' ∧ Sim o t d l c c') ∧
    (∀ l c', Reach S (move fn o t (.op d ops)) l c' → ∃ c, Reach S fn l c ∧ Sim o t d l c c') := by
  constructor
  · intro l c hr
    induction hr with
    | start hb =>
      obtain ⟨c', k1, k2⟩ := (h.begin hv hF).1 _ hb
      exact ⟨c', .start (fn := move fn o t (.op d ops)) k1, k2⟩
    | @step l c c1 hr hs ih =>
      obtain ⟨c', hr', hsim⟩ := ih
      obtain ⟨hp, l', rfl⟩ := hr.path
      cases hs with
      | @mk b e m b1 e1 m1 hg hφ hx =>
        obtain ⟨bb', e', m'⟩ := c'
        obtain ⟨s1, s2, s3, s4⟩ := hsim
        simp only at s1 s2
        subst s1; subst s2
        have hsim : Sim o t d (bb' :: l') (⟨bb', e, m'⟩ : Config V M) ⟨bb', e', m'⟩ := ⟨rfl, rfl, s3, s4⟩
        obtain ⟨e1', k1, k2⟩ := (h.arrive hv hF hr hsim hg.succ).1 e1 m1 hx
        refine ⟨⟨b1, e1', m1⟩, .step (c' := ⟨b1, e1', m1⟩) hr' ?_, k2⟩
        refine .mk ?_ ?_ ?_
        · rw [move_term]; exact goes_congr (hsim.reads h hp) hg
        · intro φ hφ'
          rw [move_phis] at hφ'
          rw [hsim.phi h hp hφ']
          exact hφ φ hφ'
        · rw [move_phis]; exact k1
  · intro l c' hr'
    induction hr' with
    | start hb =>
      obtain ⟨c, k1, k2⟩ := (h.begin hv hF).2 _ hb
      exact ⟨c, .start (fn := fn) k1, k2⟩
    | @step l c' c1' hr' hs ih =>
      obtain ⟨c, hr, hsim⟩ := ih
      obtain ⟨hp, l', rfl⟩ := hr.path
      cases hs with
      | @mk b e' m b1 e1' m1 hg hφ hx =>
        obtain ⟨bb, e, m0⟩ := c
        obtain ⟨s1, s2, s3, s4⟩ := hsim
        simp only at s1 s2
        subst s1; subst s2
        have hsim : Sim o t d (b :: l') (⟨b, e, m⟩ : Config V M) ⟨b, e', m⟩ := ⟨rfl, rfl, s3, s4⟩
        rw [move_term] at hg
        rw [move_phis] at hφ hx
        have hφ' : ∀ φ ∈ (fn.block b1).phis, phiVal e b φ ≠ none := by
          intro φ hφ'
          rw [← hsim.phi h hp hφ']
          exact hφ φ hφ'
        obtain ⟨e1, k1, k2⟩ := (h.arrive hv hF hr hsim hg.succ).2 hφ' e1' m1 hx
        refine ⟨⟨b1, e1, m1⟩, .step (c' := ⟨b1, e1, m1⟩) hr (.mk ?_ hφ' k1), k2⟩
        exact goes_congr (fun x hx => (hsim.reads h hp x hx).symm) hg

end Verif.CodeSink.Spec
