import Verif.BlockMerge.Phi

/-!
# Lemmas: runs without the phi (C73)
-/

set_option linter.unusedSimpArgs false
set_option linter.unusedVariables false
set_option linter.unusedSectionVars false

namespace Verif.BlockMerge.Spec
open Verif.IfConv Verif.CodeSink Verif.CodeSink.Spec
open Verif.IfConv.Spec hiding Valid Right

variable {V M : Type} {S : Sem V M} {fn : Fn} {b s : Lab} {d a : Id} {t : Bool} {rest : List Phi}

/-- `s` has been visited since the last definition of `a`. -/
def Fresh (fn : Fn) (a : Id) (s : Lab) (l : List Lab) : Prop :=
  ∃ u r, l = u ++ s :: r ∧ ∀ y ∈ u, a ∉ defs (fn.block y)

theorem fresh_cons {y l} (hy : y ≠ s) (h : Fresh fn a s (y :: l)) : a ∉ defs (fn.block y) ∧ Fresh fn a s l := by
  obtain ⟨u, r, e, hu⟩ := h
  cases u with
  | nil => simp at e; exact absurd e.1 hy
  | cons z u =>
    simp at e
    obtain ⟨rfl, e⟩ := e
    exact ⟨hu y (by simp), u, r, e, fun z hz => hu z (List.mem_cons_of_mem _ hz)⟩

theorem First.fresh (g : First fn b s d a t rest) (hv : Valid S fn) {y l} (hp : Path fn (y :: l))
    (hd : Dominates fn s y) : Fresh fn a s (y :: l) := by
  rcases hp.last s rfl (hd l hp) with e | ⟨x, w, r, e, hx, hw, hn⟩
  · exact ⟨[], l, by rw [e]; rfl, by simp⟩
  · refine ⟨w, r, e, fun z hz ha => ?_⟩
    obtain ⟨h1, _, _⟩ := g.a_def hv ha
    exact strict_not_on (h1.trans (g.dom hv)) g.reach_s hd hw hn hz

/-- Nothing that reads `d` is where `a` is defined. -/
theorem First.a_apart (g : First fn b s d a t rest) (hv : Valid S fn) {y} (hd : Dominates fn s y) :
    a ∉ defs (fn.block y) := by
  intro ha
  obtain ⟨h1, h2, h3⟩ := g.a_def hv ha
  exact h2 ((h1.trans (g.dom hv)).antisymm hd g.reach_s)

theorem First.a_s (g : First fn b s d a t rest) (hv : Valid S fn) : a ∉ defs (fn.block s) :=
  g.a_apart hv (Dominates.refl _)

theorem First.phi_d (g : First fn b s d a t rest) (hv : Valid S fn) (e : Env V) :
    phiEnv e b (fn.block s).phis d = e a ∧ phiEnv e b (fn.block s).phis a = e a := by
  constructor
  · unfold phiEnv
    rw [g.find_d (hv.phi_nodup s)]
    simp [phiVal]
  · exact phiEnv_same a (fun h => g.a_s hv (List.mem_append_left _ h))

theorem First.d_phis (g : First fn b s d a t rest) (hv : Valid S fn) {y} (hy : y ≠ s) :
    d ∉ (fn.block y).phis.map Phi.id := fun h => hy (hv.once d y s (List.mem_append_left _ h) g.d_def)

theorem First.val (g : First fn b s d a t rest) (hv : Valid S fn) {l} {c : Config V M} (h : Reach S fn l c) :
    Fresh fn a s l → c.env d = c.env a := by
  induction h with
  | start hb =>
    rintro ⟨u, r, e, _⟩
    cases u with
    | nil => simp at e; exact absurd e.1.symm (g.entry hv)
    | cons z u => simp at e
  | @step l c c' hr hs ih =>
    intro hf
    obtain ⟨hp, l', rfl⟩ := hr.path
    cases hs with
    | @mk p e m y e' m' hg hφ hx =>
      by_cases hy : y = s
      · subst hy
        have hpb : p = b := g.pred hv hg.succ
        subst hpb
        obtain ⟨h1, h2⟩ := g.phi_d hv e
        show e' d = e' a
        rw [hx.same d (g.d_body hv y), hx.same a (fun h => g.a_s hv (List.mem_append_right _ h)), h1, h2]
      · obtain ⟨h1, h2⟩ := fresh_cons hy hf
        show e' d = e' a
        rw [hx.same d (g.d_body hv y), hx.same a (fun h => h1 (List.mem_append_right _ h)),
          phiEnv_same d (g.d_phis hv hy), phiEnv_same a (fun h => h1 (List.mem_append_left _ h))]
        exact ih h2

/-! ### Bodies -/

theorem sub_val {e e' : Env V} (hne : a ≠ d) (he : ∀ x, x ≠ d → e' x = e x) {x : Id}
    (h : x = d → e d = e a) : e' (sub d a x) = e x := by
  unfold sub
  split
  · rename_i hx; rw [hx, h hx, he a hne]
  · rename_i hx; exact he x hx

theorem reads_sub_iff {e e' : Env V} {ops : List Id} {xs} (h : ∀ x ∈ ops, e' (sub d a x) = e x) :
    Reads e' (ops.map (sub d a)) xs ↔ Reads e ops xs := by
  unfold Reads
  rw [List.map_map, List.map_congr_left (g := e) (f := e' ∘ sub d a) h]

theorem exec_sub (hne : a ≠ d) : ∀ {is : List Inst} {e e' : Env V} {m : M}, (∀ x, x ≠ d → e' x = e x) →
    d ∉ is.map instId → ((∀ i ∈ is, d ∉ reads i) ∨ (e d = e a ∧ a ∉ is.map instId)) →
    (∀ e1 m1, Exec S is e m e1 m1 → ∃ e1', Exec S (is.map (subInst d a)) e' m e1' m1 ∧ ∀ x, x ≠ d → e1' x = e1 x) ∧
    (∀ e1' m1, Exec S (is.map (subInst d a)) e' m e1' m1 → ∃ e1, Exec S is e m e1 m1 ∧ ∀ x, x ≠ d → e1' x = e1 x)
  | [], e, e', m, he, _, _ => by
    refine ⟨?_, ?_⟩
    · intro e1 m1 h; cases h; exact ⟨e', .nil, he⟩
    · intro e1 m1 h; cases h; exact ⟨e, .nil, he⟩
  | i :: is, e, e', m, he, hd, hc => by
    simp only [List.map_cons, List.mem_cons, not_or] at hd
    have hread : ∀ x ∈ reads i, e' (sub d a x) = e x := by
      intro x hx
      refine sub_val hne he (fun e => ?_)
      rcases hc with h | h
      · exact absurd (e ▸ hx) (h i (by simp))
      · exact h.1
    have hnext : ∀ v m, (∀ e1 m1, Exec S is (define e (instId i) v) m e1 m1 →
          ∃ e1', Exec S (is.map (subInst d a)) (define e' (instId i) v) m e1' m1 ∧ ∀ x, x ≠ d → e1' x = e1 x) ∧
        (∀ e1' m1, Exec S (is.map (subInst d a)) (define e' (instId i) v) m e1' m1 →
          ∃ e1, Exec S is (define e (instId i) v) m e1 m1 ∧ ∀ x, x ≠ d → e1' x = e1 x) := by
      intro v m
      refine exec_sub hne ?_ hd.2 ?_
      · intro x hx
        simp only [define]
        split
        · rfl
        · exact he x hx
      · rcases hc with h | ⟨h, h'⟩
        · exact .inl fun j hj => h j (List.mem_cons_of_mem _ hj)
        · simp only [List.map_cons, List.mem_cons, not_or] at h'
          refine .inr ⟨?_, h'.2⟩
          simp only [define, if_neg hd.1, if_neg h'.1]
          exact h
    cases i with
    | op i ops =>
      refine ⟨?_, ?_⟩
      · intro e1 m1 h
        cases h with
        | op h1 h2 h3 =>
          obtain ⟨e1', k1, k2⟩ := (hnext _ _).1 _ _ h3
          exact ⟨e1', .op ((reads_sub_iff hread).2 h1) h2 k1, k2⟩
      · intro e1' m1 h
        cases h with
        | op h1 h2 h3 =>
          obtain ⟨e1, k1, k2⟩ := (hnext _ _).2 _ _ h3
          exact ⟨e1, .op ((reads_sub_iff hread).1 h1) h2 k1, k2⟩
    | select i c T F =>
      have h1 := hread c (by simp [reads])
      have h2 := hread T (by simp [reads])
      have h3 := hread F (by simp [reads])
      refine ⟨?_, ?_⟩
      · intro e1 m1 h
        cases h with
        | select k1 k2 k3 k4 =>
          obtain ⟨e1', k5, k6⟩ := (hnext _ _).1 _ _ k4
          exact ⟨e1', .select (h1.trans k1) (h2.trans k2) (h3.trans k3) k5, k6⟩
      · intro e1' m1 h
        cases h with
        | select k1 k2 k3 k4 =>
          obtain ⟨e1, k5, k6⟩ := (hnext _ _).2 _ _ k4
          exact ⟨e1, .select (h1.symm.trans k1) (h2.symm.trans k2) (h3.symm.trans k3) k5, k6⟩

theorem goes_sub {e e' : Env V} {m : M} {T y} (h : ∀ x ∈ termReads T, e' (sub d a x) = e x) :
    Goes S e' m (subTerm d a T) y ↔ Goes S e m T y := by
  cases T with
  | br z => constructor <;> (intro h; cases h; exact .br)
  | cond c T F =>
    have hc := h c (by simp [termReads])
    constructor
    · intro h; cases h with | cond h => exact .cond (hc.symm.trans h)
    · intro h; cases h with | cond h => exact .cond (hc.trans h)
  | multi k ops ts =>
    constructor
    · intro h'; cases h' with | multi h1 h2 h3 => exact .multi ((reads_sub_iff h).1 h1) h2 h3
    · intro h'; cases h' with | multi h1 h2 h3 => exact .multi ((reads_sub_iff h).2 h1) h2 h3

/-! ### Simulation -/

structure Alike (d : Id) (c c' : Config V M) : Prop where
  block : c'.block = c.block
  mem : c'.mem = c.mem
  env : ∀ x, x ≠ d → c'.env x = c.env x

/-- Values at the end of a block. -/
theorem First.at_end (g : First fn b s d a t rest) (hv : Valid S fn) {l} {c c' : Config V M} (h : Reach S fn l c)
    (hs : Alike d c c') {x} (ha : Avail S fn x c.block) : c'.env (sub d a x) = c.env x := by
  refine sub_val (g.a_ne hv) hs.env (fun e => g.val hv h ?_)
  obtain ⟨hp, l', rfl⟩ := h.path
  exact g.fresh hv hp (avail_dom hv.toBase g.d_def (e ▸ ha))

theorem First.at_term (g : First fn b s d a t rest) (hv : Valid S fn) {l} {c c' : Config V M} (h : Reach S fn l c)
    (hs : Alike d c c') : ∀ x ∈ termReads (fn.block c.block).term, c'.env (sub d a x) = c.env x :=
  fun x hx => g.at_end hv h hs (hv.term _ x hx)

theorem First.phi_val (g : First fn b s d a t rest) (hv : Valid S fn) {l} {c c' : Config V M} (h : Reach S fn l c)
    (hs : Alike d c c') {y φ} (hφ : φ ∈ (fn.block y).phis) :
    phiVal c'.env c.block (subPhi d a φ) = phiVal c.env c.block φ := by
  unfold phiVal
  simp only [subPhi, List.find?_map]
  have : ((fun x : Id × Lab => decide (x.2 = c.block)) ∘ fun x : Id × Lab => (sub d a x.1, x.2)) =
      fun x : Id × Lab => decide (x.2 = c.block) := rfl
  rw [this]
  cases hf : φ.args.find? (fun x => decide (x.2 = c.block)) with
  | none => rfl
  | some x =>
    simp only [Option.map_some]
    have h1 := List.mem_of_find?_eq_some hf
    have h2 : x.2 = c.block := by simpa using List.find?_some hf
    refine g.at_end hv h hs ?_
    rw [← h2]
    exact hv.phi_avail y φ hφ x h1

theorem find_sub (φs : List Phi) (x : Id) :
    (φs.map (subPhi d a)).find? (fun φ => decide (φ.id = x)) = (φs.find? (fun φ => decide (φ.id = x))).map (subPhi d a) := by
  rw [List.find?_map]
  rfl

theorem First.phi_env (g : First fn b s d a t rest) (hv : Valid S fn) {l} {c c' : Config V M} (h : Reach S fn l c)
    (hs : Alike d c c') (y : Lab) : ∀ x, x ≠ d →
    phiEnv c'.env c.block ((drop1 fn s d a rest).block y).phis x = phiEnv c.env c.block (fn.block y).phis x := by
  intro x hx
  unfold phiEnv
  have key : ∀ φs : List Phi, (∀ φ ∈ φs, φ ∈ (fn.block y).phis) →
      (match (φs.map (subPhi d a)).find? (fun φ => decide (φ.id = x)) with
        | some φ => phiVal c'.env c.block φ | none => c'.env x) =
      (match φs.find? (fun φ => decide (φ.id = x)) with
        | some φ => phiVal c.env c.block φ | none => c.env x) := by
    intro φs hm
    rw [find_sub]
    cases hf : φs.find? (fun φ => decide (φ.id = x)) with
    | none => exact hs.env x hx
    | some φ => exact g.phi_val hv h hs (hm φ (List.mem_of_find?_eq_some hf))
  by_cases hy : y = s
  · subst hy
    rw [drop_phis_s]
    refine (key rest (fun φ h => g.mem.2 (.inr h))).trans ?_
    rw [g.find hx]; rfl
  · rw [drop_phis hy]
    exact key _ (fun φ h => h)

/-- Arrival in a block, and its body. -/
theorem First.arrive (g : First fn b s d a t rest) (hv : Valid S fn) {l} {c c' : Config V M} (h : Reach S fn l c)
    (hs : Alike d c c') {y} (hy : y ∈ fn.succs c.block) :
    ((∀ ψ ∈ ((drop1 fn s d a rest).block y).phis, phiVal c'.env c.block ψ ≠ none) ↔
      (∀ φ ∈ (fn.block y).phis, phiVal c.env c.block φ ≠ none)) ∧
    (∀ e1 m1, Exec S (fn.block y).body (phiEnv c.env c.block (fn.block y).phis) c.mem e1 m1 →
      ∃ e1', Exec S ((drop1 fn s d a rest).block y).body
        (phiEnv c'.env c.block ((drop1 fn s d a rest).block y).phis) c.mem e1' m1 ∧ ∀ x, x ≠ d → e1' x = e1 x) ∧
    (∀ e1' m1, Exec S ((drop1 fn s d a rest).block y).body
        (phiEnv c'.env c.block ((drop1 fn s d a rest).block y).phis) c.mem e1' m1 →
      ∃ e1, Exec S (fn.block y).body (phiEnv c.env c.block (fn.block y).phis) c.mem e1 m1 ∧
        ∀ x, x ≠ d → e1' x = e1 x) := by
  obtain ⟨hp, l', rfl⟩ := h.path
  refine ⟨?_, ?_⟩
  · constructor
    · intro hall φ hφ
      by_cases hys : y = s
      · subst hys
        rcases g.mem.1 hφ with e | hr
        · have hb : c.block = b := g.pred hv hy
          rw [e, hb]
          simp only [phiVal, List.find?_cons, decide_true]
          refine h.defined hv.toBase.toValid a ?_
          rcases g.avail_a hv with ⟨h1, _⟩ | ⟨D, h1, h2⟩
          · exact .inl h1
          · exact .inr ⟨D, by rw [hb] at hp ⊢; exact h2 l' hp, h1⟩
        · rw [← g.phi_val hv h hs hφ]
          exact hall _ (by rw [drop_phis_s]; exact List.mem_map.2 ⟨φ, hr, rfl⟩)
      · rw [← g.phi_val hv h hs hφ]
        exact hall _ (by rw [drop_phis hys]; exact List.mem_map.2 ⟨φ, hφ, rfl⟩)
    · intro hall ψ hψ
      obtain ⟨φ, h1, rfl⟩ := g.mem_phis hψ
      rw [g.phi_val hv h hs h1]
      exact hall φ h1
  · rw [drop_body]
    refine exec_sub (g.a_ne hv) (g.phi_env hv h hs y) (g.d_body hv y) ?_
    by_cases hread : ∀ i ∈ (fn.block y).body, d ∉ reads i
    · exact .inl hread
    · have hdom : Dominates fn s y := by
        simp only [Classical.not_forall, Classical.not_not] at hread
        obtain ⟨i, hi, hdr⟩ := hread
        exact uses_below hv.toBase g.d_def ((mem_useBlocks hv.toBase).2 (.inl ⟨i, hi, hdr⟩))
      have hna := g.a_apart hv hdom
      refine .inr ⟨?_, fun h => hna (List.mem_append_right _ h)⟩
      by_cases hys : y = s
      · subst hys
        have hb : c.block = b := g.pred hv hy
        rw [hb, (g.phi_d hv c.env).1, (g.phi_d hv c.env).2]
      · rw [phiEnv_same d (g.d_phis hv hys), phiEnv_same a (fun h => hna (List.mem_append_left _ h))]
        exact g.val hv h (fresh_cons hys (g.fresh hv (hp.next hy) hdom)).2

theorem First.begins (g : First fn b s d a t rest) (hv : Valid S fn) :
    (∀ c, Begins S fn c → ∃ c', Begins S (drop1 fn s d a rest) c' ∧ Alike d c c') ∧
    (∀ c', Begins S (drop1 fn s d a rest) c' → ∃ c, Begins S fn c ∧ Alike d c c') := by
  have hc : ∀ i ∈ (fn.block fn.entry).body, d ∉ reads i := by
    intro i hi hd
    have := uses_below hv.toBase g.d_def ((mem_useBlocks hv.toBase).2 (.inl ⟨i, hi, hd⟩))
    have := this [] .entry
    simp at this
    exact g.entry hv this
  have key := exec_sub (S := S) (g.a_ne hv) (e := S.start) (e' := S.start) (m := S.mem) (fun _ _ => rfl)
    (g.d_body hv fn.entry) (.inl hc)
  constructor
  · rintro ⟨y, e, m⟩ ⟨h1, h2⟩
    obtain ⟨e1', k1, k2⟩ := key.1 _ _ h2
    refine ⟨⟨y, e1', m⟩, ⟨h1, ?_⟩, rfl, rfl, k2⟩
    show Exec S ((drop1 fn s d a rest).block fn.entry).body _ _ _ _
    rw [drop_body]; exact k1
  · rintro ⟨y, e, m⟩ ⟨h1, h2⟩
    replace h2 : Exec S ((drop1 fn s d a rest).block fn.entry).body S.start S.mem e m := h2
    rw [drop_body] at h2
    obtain ⟨e1, k1, k2⟩ := key.2 _ _ h2
    exact ⟨⟨y, e1, m⟩, ⟨h1, k1⟩, rfl, rfl, k2⟩

theorem First.runs (g : First fn b s d a t rest) (hv : Valid S fn) :
    (∀ l c, Reach S fn l c → ∃ c', Reach S (drop1 fn s d a rest) l c' ∧ Alike d c c') ∧
    (∀ l c', Reach S (drop1 fn s d a rest) l c' → ∃ c, Reach S fn l c ∧ Alike d c c') := by
  constructor
  · intro l c hr
    induction hr with
    | start hb =>
      obtain ⟨c', k1, k2⟩ := (g.begins hv).1 _ hb
      exact ⟨c', .start (fn := drop1 fn s d a rest) k1, k2⟩
    | @step l c c1 hr hs ih =>
      obtain ⟨c', hr', hsim⟩ := ih
      cases hs with
      | @mk p e m y e1 m1 hg hφ hx =>
        obtain ⟨p', e', m'⟩ := c'
        have hb := hsim.block
        have hm := hsim.mem
        simp only at hb hm
        subst hb; subst hm
        obtain ⟨k1, k2, _⟩ := g.arrive hv hr hsim hg.succ
        obtain ⟨e1', k3, k4⟩ := k2 _ _ hx
        refine ⟨⟨y, e1', m1⟩, .step (c' := ⟨y, e1', m1⟩) hr' (.mk ?_ (k1.2 hφ) k3), rfl, rfl, k4⟩
        rw [drop_term]
        exact (goes_sub (g.at_term hv hr hsim)).2 hg
  · intro l c' hr'
    induction hr' with
    | start hb =>
      obtain ⟨c, k1, k2⟩ := (g.begins hv).2 _ hb
      exact ⟨c, .start k1, k2⟩
    | @step l c' c1' hr' hs ih =>
      obtain ⟨c, hr, hsim⟩ := ih
      cases hs with
      | @mk p' e' m' y e1' m1 hg hφ hx =>
        obtain ⟨p, e, m⟩ := c
        have hb := hsim.block
        have hm := hsim.mem
        simp only at hb hm
        subst hb; subst hm
        rw [drop_term] at hg
        have hg' := (goes_sub (g.at_term hv hr hsim)).1 hg
        obtain ⟨k1, _, k2⟩ := g.arrive hv hr hsim hg'.succ
        obtain ⟨e1, k3, k4⟩ := k2 _ _ hx
        exact ⟨⟨y, e1, m1⟩, .step (c' := ⟨y, e1, m1⟩) hr (.mk hg' (k1.1 hφ) k3), rfl, rfl, k4⟩

end Verif.BlockMerge.Spec
