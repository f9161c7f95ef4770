import Verif.CodeSink.Runs

/-!
# Lemmas: runs of two functions that differ in where an instruction is (C72)

As in `Verif.CodeSink.Runs`, but the instruction may be at any place in its later block.
-/

set_option linter.unusedSimpArgs false
set_option linter.unusedVariables false
set_option linter.unusedSectionVars false

namespace Verif.Licm.Spec
open Verif.IfConv Verif.CodeSink Verif.CodeSink.Spec
open Verif.IfConv.Spec hiding Valid

variable {V M : Type} {S : Sem V M} {fn fn' : Fn} {o t : Lab} {d : Id} {ops : List Id}

/-- `op d ops` is in block `o` of `fn`, and in block `t` of `fn'`. -/
structure Shift (fn fn' : Fn) (o t : Lab) (d : Id) (ops : List Id) : Prop where
  ne : t ≠ o
  dom : Dominates fn o t
  reach : Reachable fn o
  useBody : ∀ b i, i ∈ (fn.block b).body → d ∈ reads i → Dominates fn t b
  useTerm : ∀ b, d ∈ termReads (fn.block b).term → Dominates fn t b
  usePhi : ∀ b, ∀ φ ∈ (fn.block b).phis, ∀ p, (d, p) ∈ φ.args → Dominates fn t p
  entry : fn'.entry = fn.entry
  phis : ∀ b, (fn'.block b).phis = (fn.block b).phis
  term : ∀ b, (fn'.block b).term = (fn.block b).term
  split : ∃ pre post, (fn.block o).body = pre ++ .op d ops :: post ∧ (fn'.block o).body = pre ++ post
  body_t : ∃ A B, (fn.block t).body = A ++ B ∧ (fn'.block t).body = A ++ .op d ops :: B ∧ ∀ j ∈ A, d ∉ reads j
  body_other : ∀ b, b ≠ o → b ≠ t → (fn'.block b).body = (fn.block b).body

theorem Shift.mem (h : Shift fn fn' o t d ops) : .op d ops ∈ (fn.block o).body := by
  obtain ⟨pre, post, e, _⟩ := h.split
  rw [e]; simp

theorem Shift.not_dom (h : Shift fn fn' o t d ops) : ¬ Dominates fn t o := fun hd =>
  h.ne (hd.antisymm h.dom h.reach)

theorem Shift.d_once (h : Shift fn fn' o t d ops) (hv : Valid S fn) {b} (hb : d ∈ defs (fn.block b)) : b = o :=
  hv.once d b o hb (op_defs h.mem)

theorem Shift.d_split (h : Shift fn fn' o t d ops) (hv : Valid S fn) {pre post}
    (e : (fn.block o).body = pre ++ .op d ops :: post) :
    d ∉ (fn.block o).phis.map Phi.id ∧ d ∉ pre.map instId ∧ d ∉ post.map instId := by
  have hn := hv.nodup o
  unfold defs at hn
  rw [e, List.map_append, List.map_cons] at hn
  have h1 := List.nodup_append.1 hn
  have h2 := List.nodup_append.1 h1.2.1
  refine ⟨?_, ?_, ?_⟩
  · intro hd; exact h1.2.2 d hd d (by simp [instId]) rfl
  · intro hd; exact h2.2.2 d hd d (by simp [instId]) rfl
  · exact (List.nodup_cons.1 h2.2.1).1

theorem Shift.ops_ready (h : Shift fn fn' o t d ops) (hv : Valid S fn) {pre post}
    (e : (fn.block o).body = pre ++ .op d ops :: post) {x} (hx : x ∈ ops) :
    x ≠ d ∧ (x ∈ (fn.block o).phis.map Phi.id ∨ x ∈ pre.map instId ∨ Outside S fn x o) := by
  have hr := hv.ready o pre _ post e x hx
  refine ⟨?_, hr⟩
  rintro rfl
  have hd := h.d_split hv e
  rcases hr with h1 | h1 | ⟨_, h1⟩ | ⟨b', h1, h2, _⟩
  · exact hd.1 h1
  · exact hd.2.1 h1
  · exact h1 o (op_defs h.mem)
  · exact h1 (h.d_once hv h2)

/-- On arrival at a block below `t`, `t` has been visited since the last `o`. -/
theorem Shift.cur (h : Shift fn fn' o t d ops) {b l} (hp : Path fn (b :: l)) (hd : Dominates fn t b) :
    Cur o t (b :: l) := by
  by_cases hbt : b = t
  · subst hbt; exact ⟨[], l, rfl, by simp⟩
  · rcases hp.last t rfl (hd l hp) with e | ⟨x, w, rest, e, hx, hw, hn⟩
    · exact absurd e hbt
    · refine ⟨w, rest, e, ?_⟩
      have hr : Reachable fn t := ⟨rest, hp.suffix e⟩
      exact strict_not_on h.dom hr hd hw hn

/-! ### The value of `d` -/

/-- At the end of `o`. -/
theorem Shift.val_o (h : Shift fn fn' o t d ops) (hv : Valid S fn) {F : List V → V}
    (hF : ∀ xs m x m', S.act d xs m x m' ↔ x = F xs ∧ m' = m) {e m e1 m1}
    (hx : Exec S (fn.block o).body e m e1 m1) :
    ∃ xs, Reads e1 ops xs ∧ e1 d = some (F xs) := by
  obtain ⟨pre, post, e0, _⟩ := h.split
  have hn := hv.nodup o
  unfold defs at hn
  rw [e0] at hx
  obtain ⟨ea, ma, k1, k2⟩ := exec_append.1 hx
  have hds := h.d_split hv e0
  cases k2 with
  | @op _ _ _ _ _ xs x mb _ _ hr ha hp =>
    obtain ⟨rfl, rfl⟩ := (hF _ _ _ _).1 ha
    refine ⟨xs, reads_congr (fun y hy => ?_) hr, ?_⟩
    · obtain ⟨hyd, hy'⟩ := h.ops_ready hv e0 hy
      have hnp : y ∉ post.map instId := by
        rw [e0, List.map_append, List.map_cons] at hn
        have h1 := List.nodup_append.1 hn
        have h2 := List.nodup_append.1 h1.2.1
        intro hp'
        rcases hy' with h' | h' | ⟨_, h'⟩ | ⟨b', h', h'', _⟩
        · exact h1.2.2 y h' y (by simp [hp']) rfl
        · exact h2.2.2 y h' y (by simp [hp']) rfl
        · exact h' o (List.mem_append_right _ (by rw [e0]; simp [hp']))
        · exact h' (hv.once y b' o h'' (List.mem_append_right _ (by rw [e0]; simp [hp'])))
      rw [hp.same y hnp]
      simp [define, hyd]
    · rw [hp.same d hds.2.2]; simp [define]

theorem Shift.val_end (h : Shift fn fn' o t d ops) (hv : Valid S fn) {F : List V → V}
    (hF : ∀ xs m x m', S.act d xs m x m' ↔ x = F xs ∧ m' = m) {r} {c : Config V M}
    (hr : Reach S fn (o :: r) c) (hb : c.block = o) :
    ∃ xs, Reads c.env ops xs ∧ c.env d = some (F xs) := by
  generalize e : o :: r = l at hr
  cases hr with
  | start hbeg =>
    have hx := hbeg.2
    rw [← hbeg.1, hb] at hx
    exact h.val_o hv hF hx
  | step hr hs =>
    cases hs with
    | mk hg hp hx =>
      simp only at hb
      subst hb
      exact h.val_o hv hF hx

/-- Operands are not defined on the way from the last `o` to a block below it. -/
theorem Shift.ops_still (h : Shift fn fn' o t d ops) (hv : Valid S fn) {x y q w} (hx : x ∈ ops)
    (hw : Walk fn y q w) (hno : o ∉ w) (hd : Dominates fn o q) : ∀ b ∈ w, x ∉ defs (fn.block b) := by
  intro b hb hxb
  obtain ⟨pre, post, e0, _⟩ := h.split
  obtain ⟨_, hr⟩ := h.ops_ready hv e0 hx
  have hin : x ∈ defs (fn.block o) → False := fun h' => hno (by
    rw [← hv.once x b o hxb h']; exact hb)
  rcases hr with h' | h' | ⟨_, h'⟩ | ⟨b', h1, h2, h3⟩
  · exact hin (List.mem_append_left _ h')
  · exact hin (List.mem_append_right _ (by rw [e0, List.map_append]; exact List.mem_append_left _ h'))
  · exact h' b hxb
  · have : b = b' := hv.once x b b' hxb h2
    subst this
    exact strict_not_on h3 h.reach hd hw hno hb

/-- The value of `d` on arrival at `t`. -/
theorem Shift.val_t (h : Shift fn fn' o t d ops) (hv : Valid S fn) {F : List V → V}
    (hF : ∀ xs m x m', S.act d xs m x m' ↔ x = F xs ∧ m' = m) {l} {c : Config V M}
    (hr : Reach S fn l c) (hs : t ∈ fn.succs c.block) :
    ∃ xs, Reads c.env ops xs ∧ c.env d = some (F xs) ∧ ∀ x ∈ ops, x ∉ defs (fn.block t) := by
  obtain ⟨hp, l', rfl⟩ := hr.path
  have hpt := hp.next hs
  rcases hpt.last o rfl (h.dom _ hpt) with e | ⟨x, w, rest, e, hx, hw, hn⟩
  · exact absurd e h.ne
  · obtain ⟨w', rfl⟩ := hw.head
    simp only [List.cons_append, List.cons.injEq, true_and] at e
    obtain ⟨c0, h1, h2, h3⟩ := reach_back hr e
    obtain ⟨xs, k1, k2⟩ := h.val_end hv hF h1 h2
    have hst : ∀ y ∈ ops, ∀ b ∈ t :: w', y ∉ defs (fn.block b) := fun y hy => h.ops_still hv hy hw hn h.dom
    refine ⟨xs, reads_congr (fun y hy => h3 y fun b hb => hst y hy b (List.mem_cons_of_mem _ hb)) k1, ?_, 
      fun y hy => hst y hy t (by simp)⟩
    rw [h3 d, k2]
    intro b hb hd
    have := h.d_once hv hd
    subst this
    exact hn (List.mem_cons_of_mem _ hb)

/-! ### Simulation -/

theorem Shift.sreads (h : Shift fn fn' o t d ops) {l} {c c' : Config V M} (hs : Sim o t d (c.block :: l) c c')
    (hp : Path fn (c.block :: l)) : ∀ x ∈ termReads (fn.block c.block).term, c'.env x = c.env x := by
  intro x hx
  by_cases hd : x = d
  · subst hd; exact hs.cur (h.cur hp (h.useTerm _ hx))
  · exact hs.env x hd

theorem Shift.sphi (h : Shift fn fn' o t d ops) {l} {c c' : Config V M} (hs : Sim o t d (c.block :: l) c c')
    (hp : Path fn (c.block :: l)) {b φ} (hφ : φ ∈ (fn.block b).phis) :
    phiVal c'.env c.block φ = phiVal c.env c.block φ := by
  unfold phiVal
  split
  · rename_i a ha
    have h1 := List.mem_of_find?_eq_some ha
    have h2 := List.find?_some ha
    simp only [decide_eq_true_eq] at h2
    by_cases hd : a.1 = d
    · rw [hd]
      exact hs.cur (h.cur hp (h.usePhi b φ hφ c.block (by rw [← hd, ← h2]; exact h1)))
    · exact hs.env _ hd
  · rfl

theorem Shift.sphiEnv (h : Shift fn fn' o t d ops) (hv : Valid S fn) {l} {c c' : Config V M}
    (hs : Sim o t d (c.block :: l) c c') (hp : Path fn (c.block :: l)) (b : Lab) :
    (∀ x, x ≠ d → phiEnv c'.env c.block (fn.block b).phis x = phiEnv c.env c.block (fn.block b).phis x) ∧
    phiEnv c'.env c.block (fn.block b).phis d = c'.env d ∧ phiEnv c.env c.block (fn.block b).phis d = c.env d := by
  have hnd : d ∉ (fn.block b).phis.map Phi.id := by
    intro hd
    have := h.d_once hv (List.mem_append_left _ hd)
    subst this
    obtain ⟨pre, post, e0, _⟩ := h.split
    exact (h.d_split hv e0).1 hd
  refine ⟨fun x hx => ?_, phiEnv_same d hnd, phiEnv_same d hnd⟩
  unfold IfConv.Spec.phiEnv
  split
  · rename_i φ hφ
    exact h.sphi hs hp (List.mem_of_find?_eq_some hφ)
  · exact hs.env x hx

theorem Shift.no_use_o (h : Shift fn fn' o t d ops) : ∀ i ∈ (fn.block o).body, d ∉ reads i :=
  fun i hi hd => h.not_dom (h.useBody o i hi hd)

/-- The body of `o`, forward. -/
theorem Shift.body_o_fwd (h : Shift fn fn' o t d ops) (hv : Valid S fn) {F : List V → V}
    (hF : ∀ xs m x m', S.act d xs m x m' ↔ x = F xs ∧ m' = m) {e e' : Env V} {m e1 m1}
    (he : ∀ x, x ≠ d → e' x = e x) (hx : Exec S (fn.block o).body e m e1 m1) :
    ∃ e1', Exec S (fn'.block o).body e' m e1' m1 ∧ ∀ x, x ≠ d → e1' x = e1 x := by
  obtain ⟨pre, post, e0, e2⟩ := h.split
  have hds := h.d_split hv e0
  have hu := h.no_use_o
  rw [e2]
  rw [e0] at hx hu
  obtain ⟨ea, ma, k1, k2⟩ := exec_append.1 hx
  obtain ⟨ea', h1, h2, _⟩ := exec_agree k1 he (fun i hi => hu i (by simp [hi])) hds.2.1
  cases k2 with
  | @op _ _ _ _ _ xs x mb _ _ hr ha hp =>
    obtain ⟨rfl, rfl⟩ := (hF _ _ _ _).1 ha
    obtain ⟨e1', h3, h4, _⟩ := exec_agree (d := d) hp (e' := ea') (by
      intro x hx'
      rw [h2 x hx']; simp [define, hx']) (fun i hi => hu i (by simp [hi])) hds.2.2
    exact ⟨e1', exec_append.2 ⟨_, _, h1, h3⟩, h4⟩

/-- The body of `o`, backward. The operands have values. -/
theorem Shift.body_o_bwd (h : Shift fn fn' o t d ops) (hv : Valid S fn) {F : List V → V}
    (hF : ∀ xs m x m', S.act d xs m x m' ↔ x = F xs ∧ m' = m) {e e' : Env V} {m e1' m1}
    (he : ∀ x, x ≠ d → e' x = e x)
    (hdef : ∀ x, x ∈ (fn.block o).phis.map Phi.id ∨ Outside S fn x o → e x ≠ none)
    (hx : Exec S (fn'.block o).body e' m e1' m1) :
    ∃ e1, Exec S (fn.block o).body e m e1 m1 ∧ ∀ x, x ≠ d → e1' x = e1 x := by
  obtain ⟨pre, post, e0, e2⟩ := h.split
  have hds := h.d_split hv e0
  have hu := h.no_use_o
  rw [e2] at hx
  rw [e0] at hu
  obtain ⟨ea', ma, k1, k2⟩ := exec_append.1 hx
  obtain ⟨ea, h1, h2, _⟩ := exec_agree k1 (e' := e) (fun x hx => (he x hx).symm)
    (fun i hi => hu i (by simp [hi])) hds.2.1
  have hvals : ∃ xs, Reads ea ops xs := by
    have hall : ∀ x ∈ ops, ea x ≠ none := by
      intro x hx
      obtain ⟨hxd, hx'⟩ := h.ops_ready hv e0 hx
      refine h1.defined x ?_
      rcases hx' with h' | h' | h'
      · exact .inr (hdef x (.inl h'))
      · exact .inl h'
      · exact .inr (hdef x (.inr h'))
    clear hu hds e0 e2 hx
    generalize ops = L at hall
    induction L with
    | nil => exact ⟨[], rfl⟩
    | cons y L ih =>
      obtain ⟨xs, ih⟩ := ih (fun x hx => hall x (List.mem_cons_of_mem _ hx))
      cases hy : ea y with
      | none => exact absurd hy (hall y (by simp))
      | some v => exact ⟨v :: xs, by unfold Reads at *; simp [hy, ih]⟩
  obtain ⟨xs, hxs⟩ := hvals
  obtain ⟨e1, h3, h4, _⟩ := exec_agree (d := d) k2 (e' := define ea d (F xs)) (by
    intro x hx'
    simp [define, hx', h2 x hx']) (fun i hi => hu i (by simp [hi])) hds.2.2
  refine ⟨e1, ?_, fun x hx => (h4 x hx).symm⟩
  rw [e0]
  exact exec_append.2 ⟨_, _, h1, .op hxs ((hF _ _ _ _).2 ⟨rfl, rfl⟩) h3⟩

/-- Both bodies on arrival in block `b`: forward. -/
theorem Shift.arrive (h : Shift fn fn' o t d ops) (hv : Valid S fn) {F : List V → V}
    (hF : ∀ xs m x m', S.act d xs m x m' ↔ x = F xs ∧ m' = m) {l} {c c' : Config V M}
    (hr : Reach S fn (c.block :: l) c) (hs : Sim o t d (c.block :: l) c c') {b} (hb : b ∈ fn.succs c.block) :
    (∀ e1 m1, Exec S (fn.block b).body (IfConv.Spec.phiEnv c.env c.block (fn.block b).phis) c.mem e1 m1 →
      ∃ e1', Exec S (fn'.block b).body
        (IfConv.Spec.phiEnv c'.env c.block (fn.block b).phis) c.mem e1' m1 ∧
        Sim o t d (b :: c.block :: l) ⟨b, e1, m1⟩ ⟨b, e1', m1⟩) ∧
    ((∀ φ ∈ (fn.block b).phis, phiVal c.env c.block φ ≠ none) →
      ∀ e1' m1, Exec S (fn'.block b).body
        (IfConv.Spec.phiEnv c'.env c.block (fn.block b).phis) c.mem e1' m1 →
      ∃ e1, Exec S (fn.block b).body (IfConv.Spec.phiEnv c.env c.block (fn.block b).phis) c.mem e1 m1 ∧
        Sim o t d (b :: c.block :: l) ⟨b, e1, m1⟩ ⟨b, e1', m1⟩) := by
  have hp := hr.path.1
  obtain ⟨hE, hE', hE2⟩ := h.sphiEnv hv hs hp b
  by_cases hbo : b = o
  · subst hbo
    constructor
    · intro e1 m1 hx
      obtain ⟨e1', k1, k2⟩ := h.body_o_fwd hv hF hE hx
      exact ⟨e1', k1, rfl, rfl, k2, fun hc => (not_cur h.ne hc).elim⟩
    · intro hphi e1' m1 hx
      obtain ⟨e1, k1, k2⟩ := h.body_o_bwd hv hF hE (by
        intro x hx'
        rcases hx' with hx' | hx'
        · exact phiEnv_defined hphi x (.inl hx')
        · refine phiEnv_defined hphi x (.inr ?_)
          refine hr.defined hv.toValid x ?_
          rcases hx' with hx' | ⟨b', h1, h2, h3⟩
          · exact .inl hx'.1
          · refine .inr ⟨b', ?_, h2⟩
            have := h3 _ (hp.next hb)
            simpa [h1] using this) hx
      exact ⟨e1, k1, rfl, rfl, k2, fun hc => (not_cur h.ne hc).elim⟩
  · by_cases hbt : b = t
    · subst hbt
      obtain ⟨xs, k1, k2, k3⟩ := h.val_t hv hF hr hb
      obtain ⟨A, B, eA, eB, hA⟩ := h.body_t
      rw [eA, eB]
      have hdA : d ∉ A.map instId := fun hd =>
        hbo (h.d_once hv (List.mem_append_right _ (by rw [eA]; simp [hd])))
      have fin : ∀ {ea ea' : Env V} {ma m0}, Exec S A (IfConv.Spec.phiEnv c.env c.block (fn.block b).phis) m0 ea ma →
          (∀ x, x ≠ d → ea' x = ea x) → Reads ea' ops xs ∧ define ea' d (F xs) = ea := by
        intro ea ea' ma m0 hx he
        constructor
        · refine reads_congr (fun x hx' => ?_) k1
          obtain ⟨pre, post, e0, _⟩ := h.split
          rw [he x (h.ops_ready hv e0 hx').1, hx.same x (fun h' => k3 x hx' (List.mem_append_right _ (by
            rw [eA, List.map_append]; exact List.mem_append_left _ h')))]
          exact phiEnv_same x (fun h' => k3 x hx' (List.mem_append_left _ h'))
        · funext x
          simp only [define]
          split
          · rename_i e; subst e; rw [hx.same x hdA, hE2, k2]
          · rename_i e; exact he x e
      constructor
      · intro e1 m1 hx
        obtain ⟨ea, ma, x1, x2⟩ := exec_append.1 hx
        obtain ⟨ea', y1, y2, _⟩ := exec_agree x1 hE hA hdA
        obtain ⟨f1, f2⟩ := fin x1 y2
        exact ⟨e1, exec_append.2 ⟨_, _, y1, .op f1 ((hF _ _ _ _).2 ⟨rfl, rfl⟩) (by rw [f2]; exact x2)⟩, rfl, rfl,
          fun _ _ => rfl, fun _ => rfl⟩
      · intro _ e1' m1 hx
        obtain ⟨ea', ma, x1, x2⟩ := exec_append.1 hx
        obtain ⟨ea, y1, y2, _⟩ := exec_agree x1 (fun x hx => (hE x hx).symm) hA hdA
        obtain ⟨f1, f2⟩ := fin y1 (fun x hx => (y2 x hx).symm)
        cases x2 with
        | @op _ _ _ _ _ xs' x mb _ _ hr' ha hp' =>
          obtain ⟨rfl, rfl⟩ := (hF _ _ _ _).1 ha
          have : xs' = xs := by
            unfold Reads at f1 hr'
            rw [f1] at hr'
            exact (List.map_inj_right (fun _ _ h => Option.some.inj h)).1 hr'.symm
          subst this
          rw [f2] at hp'
          exact ⟨e1', exec_append.2 ⟨_, _, y1, hp'⟩, rfl, rfl, fun _ _ => rfl, fun _ => rfl⟩
    · rw [h.body_other b hbo hbt]
      have hdb : d ∉ (fn.block b).body.map instId := fun hd =>
        hbo (h.d_once hv (List.mem_append_right _ hd))
      by_cases hu : ∃ i ∈ (fn.block b).body, d ∈ reads i
      · obtain ⟨i, hi, hd⟩ := hu
        have hcur := hs.cur (cur_cons hbo hbt (h.cur (hp.next hb) (h.useBody b i hi hd)))
        have henv : IfConv.Spec.phiEnv c'.env c.block (fn.block b).phis =
            IfConv.Spec.phiEnv c.env c.block (fn.block b).phis := by
          funext x
          by_cases hx : x = d
          · subst hx; rw [hE', hE2, hcur]
          · exact hE x hx
        rw [henv]
        exact ⟨fun e1 m1 hx => ⟨e1, hx, rfl, rfl, fun _ _ => rfl, fun _ => rfl⟩,
          fun _ e1 m1 hx => ⟨e1, hx, rfl, rfl, fun _ _ => rfl, fun _ => rfl⟩⟩
      · have hu' : ∀ i ∈ (fn.block b).body, d ∉ reads i := fun i hi hd => hu ⟨i, hi, hd⟩
        constructor
        · intro e1 m1 hx
          obtain ⟨e1', k1, k2, k3⟩ := exec_agree hx hE hu' hdb
          refine ⟨e1', k1, rfl, rfl, k2, fun hc => ?_⟩
          simp only
          rw [k3, hE', hs.cur (cur_cons hbo hbt hc), hx.same d hdb, hE2]
        · intro _ e1' m1 hx
          obtain ⟨e1, k1, k2, k3⟩ := exec_agree hx (fun x hx => (hE x hx).symm) hu' hdb
          refine ⟨e1, k1, rfl, rfl, fun x hx => (k2 x hx).symm, fun hc => ?_⟩
          simp only
          rw [k3, hE2, ← hs.cur (cur_cons hbo hbt hc), hx.same d hdb, hE']

/-- The first block. -/
theorem Shift.begin (h : Shift fn fn' o t d ops) (hv : Valid S fn) {F : List V → V}
    (hF : ∀ xs m x m', S.act d xs m x m' ↔ x = F xs ∧ m' = m) :
    (∀ c, Begins S fn c → ∃ c', Begins S fn' c' ∧ Sim o t d [fn.entry] c c') ∧
    (∀ c', Begins S fn' c' → ∃ c, Begins S fn c ∧ Sim o t d [fn.entry] c c') := by
  have het : fn.entry ≠ t := by
    intro e
    have := h.dom [] (by rw [← e]; exact .entry)
    simp at this
    exact h.ne this.symm
  by_cases heo : fn.entry = o
  · have hno : ¬ Cur o t [fn.entry] := fun hc => by
      rw [heo] at hc; exact not_cur h.ne hc
    constructor
    · rintro ⟨b, e1, m1⟩ ⟨hb, hx⟩
      simp only at hb hx
      rw [heo] at hx
      obtain ⟨e1', k1, k2⟩ := h.body_o_fwd hv hF (fun _ _ => rfl) hx
      exact ⟨⟨b, e1', m1⟩, ⟨by rw [h.entry]; exact hb, by rw [h.entry, heo]; exact k1⟩,
        rfl, rfl, k2, fun hc => (hno hc).elim⟩
    · rintro ⟨b, e1', m1⟩ ⟨hb, hx⟩
      simp only [h.entry] at hb hx
      rw [heo] at hx
      obtain ⟨e1, k1, k2⟩ := h.body_o_bwd hv hF (e := S.start) (fun _ _ => rfl) (by
        intro x hx'
        rcases hx' with hx' | hx' | ⟨b', h1, h2, h3⟩
        · rw [← heo, hv.entry_phis] at hx'; simp at hx'
        · exact hx'.1
        · have := h3 [] (by rw [← heo]; exact .entry)
          simp at this; exact absurd this h1) hx
      exact ⟨⟨b, e1, m1⟩, ⟨hb, by simp only; rw [heo]; exact k1⟩, rfl, rfl, k2, fun hc => (hno hc).elim⟩
  · have hbl : (fn'.block fn.entry).body = (fn.block fn.entry).body := h.body_other _ heo het
    constructor
    · rintro c ⟨hb, hx⟩
      refine ⟨c, ⟨by rw [h.entry]; exact hb, ?_⟩, rfl, rfl, fun _ _ => rfl, fun _ => rfl⟩
      rw [h.entry, hbl]; exact hx
    · rintro c ⟨hb, hx⟩
      rw [h.entry] at hb hx
      refine ⟨c, ⟨hb, ?_⟩, rfl, rfl, fun _ _ => rfl, fun _ => rfl⟩
      rw [hbl] at hx; exact hx

theorem Shift.runs (h : Shift fn fn' o t d ops) (hv : Valid S fn) {F : List V → V}
    (hF : ∀ xs m x m', S.act d xs m x m' ↔ x = F xs ∧ m' = m) :
    (∀ l c, Reach S fn l c → ∃ c', Reach S fn' l c' ∧ Sim o t d l c c') ∧
    (∀ l c', Reach S fn' l c' → ∃ c, Reach S fn l c ∧ Sim o t d l c c') := by
  constructor
  · intro l c hr
    induction hr with
    | start hb =>
      obtain ⟨c', k1, k2⟩ := (h.begin hv hF).1 _ hb
      refine ⟨c', ?_, k2⟩
      have := Reach.start k1
      rw [h.entry] at this; exact this
    | @step l c c1 hr hs ih =>
      obtain ⟨c', hr', hsim⟩ := ih
      obtain ⟨hp, l', rfl⟩ := hr.path
      cases hs with
      | @mk b e m b1 e1 m1 hg hφ hx =>
        obtain ⟨bb', e', m'⟩ := c'
        obtain ⟨s1, s2, s3, s4⟩ := hsim
        simp only at s1 s2
        subst s1; subst s2
        have hsim : Sim o t d (bb' :: l') (⟨bb', e, m'⟩ : Config V M) ⟨bb', e', m'⟩ := ⟨rfl, rfl, s3, s4⟩
        obtain ⟨e1', k1, k2⟩ := (h.arrive hv hF hr hsim hg.succ).1 e1 m1 hx
        refine ⟨⟨b1, e1', m1⟩, .step (c' := ⟨b1, e1', m1⟩) hr' ?_, k2⟩
        refine .mk ?_ ?_ ?_
        · rw [h.term]; exact goes_congr (h.sreads hsim hp) hg
        · intro φ hφ'
          rw [h.phis] at hφ'
          rw [h.sphi hsim hp hφ']
          exact hφ φ hφ'
        · rw [h.phis]; exact k1
  · intro l c' hr'
    induction hr' with
    | start hb =>
      obtain ⟨c, k1, k2⟩ := (h.begin hv hF).2 _ hb
      rw [h.entry]
      exact ⟨c, .start (fn := fn) k1, k2⟩
    | @step l c' c1' hr' hs ih =>
      obtain ⟨c, hr, hsim⟩ := ih
      obtain ⟨hp, l', rfl⟩ := hr.path
      cases hs with
      | @mk b e' m b1 e1' m1 hg hφ hx =>
        obtain ⟨bb, e, m0⟩ := c
        obtain ⟨s1, s2, s3, s4⟩ := hsim
        simp only at s1 s2
        subst s1; subst s2
        have hsim : Sim o t d (b :: l') (⟨b, e, m⟩ : Config V M) ⟨b, e', m⟩ := ⟨rfl, rfl, s3, s4⟩
        rw [h.term] at hg
        rw [h.phis] at hφ hx
        have hφ' : ∀ φ ∈ (fn.block b1).phis, phiVal e b φ ≠ none := by
          intro φ hφ'
          rw [← h.sphi hsim hp hφ']
          exact hφ φ hφ'
        obtain ⟨e1, k1, k2⟩ := (h.arrive hv hF hr hsim hg.succ).2 hφ' e1' m1 hx
        refine ⟨⟨b1, e1, m1⟩, .step (c' := ⟨b1, e1, m1⟩) hr (.mk ?_ hφ' k1), k2⟩
        exact goes_congr (fun x hx => (h.sreads hsim hp x hx).symm) hg

end Verif.Licm.Spec
