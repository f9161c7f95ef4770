import Verif.Cfa.Dfs
import Verif.Cfa.DomIdx
set_option linter.unusedSimpArgs false
set_option linter.unusedVariables false
set_option linter.unusedSectionVars false
namespace Verif.Cfa
open Spec Idx
variable {B : Type} [DecidableEq B]

structure Rep (po : List B) (m : Idoms B) (D : Nat → Nat) : Prop where
  nd : po.Nodup
  get : ∀ i b, po[i]? = some b → m b = some (D i, i)
  out : ∀ b, b ∉ po → m b = none

/-- Predecessors as postorder indices; those outside the postorder are dropped. -/
def predsI (po : List B) (pred : B → List B) (c : Nat) : List Nat :=
  match po[c]? with
  | none => []
  | some b => (pred b).filterMap fun p => if p ∈ po then some (po.idxOf p) else none

theorem getElem?_idxOf' {po : List B} {b : B} (h : b ∈ po) : po[po.idxOf b]? = some b := by
  have := List.idxOf_lt_length_of_mem h
  rw [List.getElem?_eq_getElem this, List.getElem_idxOf]

theorem idxOf_of_get {po : List B} (nd : po.Nodup) {i b} (h : po[i]? = some b) : po.idxOf b = i := by
  obtain ⟨hi, rfl⟩ := List.getElem?_eq_some_iff.mp h
  have hm : po[i] ∈ po := List.getElem_mem hi
  have h2 := List.idxOf_lt_length_of_mem hm
  have h3 : po[po.idxOf po[i]] = po[i] := List.getElem_idxOf h2
  exact (List.getElem_inj nd).mp h3

theorem Rep.mem {po : List B} {m D} (r : Rep po m D) {b} (h : b ∈ po) :
    m b = some (D (po.idxOf b), po.idxOf b) := r.get _ _ (getElem?_idxOf' h)

theorem mem_predsI {po : List B} {pred c b} (hb : po[c]? = some b) {i} :
    i ∈ predsI po pred c ↔ ∃ p ∈ pred b, p ∈ po ∧ po.idxOf p = i := by
  unfold predsI
  simp only [hb, List.mem_filterMap]
  constructor
  · rintro ⟨p, hp, h⟩
    split at h
    · rename_i hm; simp only [Option.some.injEq] at h; exact ⟨p, hp, hm, h⟩
    · simp at h
  · rintro ⟨p, hp, hm, rfl⟩
    exact ⟨p, hp, by simp [hm]⟩

theorem climb_eq {po : List B} {m D} (r : Rep po m D) : ∀ k f g, g < po.length →
    climb po m k f g = Idx.climb D k f g := by
  intro k
  induction k with
  | zero => intros; rfl
  | succ k ih =>
    intro f g hg
    unfold climb Idx.climb
    by_cases h : f < g
    · rw [if_pos h, if_pos h]
      have hf : po[f]? = some po[f] := List.getElem?_eq_getElem (by omega)
      simp only [hf, r.get _ _ hf]
      exact ih _ _ hg
    · rw [if_neg h, if_neg h]

theorem intersect_eq {po : List B} {m D} (r : Rep po m D) (w : WF po.length D) : ∀ k f g,
    f < po.length → g < po.length → D f ≠ po.length → D g ≠ po.length →
    (po.length + 2) + (2 * po.length - f - g) ≤ k →
    intersect po m k f g = Idx.inter D k f g := by
  intro k
  induction k with
  | zero => intros; rfl
  | succ k ih =>
    intro f g hf hg hdf hdg hk
    unfold intersect Idx.inter
    by_cases he : f = g
    · rw [if_pos he, if_pos he]
    · rw [if_neg he, if_neg he]
      obtain ⟨f', a1, a2, a3, a4, a5, a6⟩ := climb_spec w k f g hf hg hdf (by omega)
      have hf' := a2.lt_N w hf
      have hdf' := a2.defd w hdf
      obtain ⟨g', b1, b2, b3, b4, b5, b6⟩ := climb_spec w k g f' hg hf' hdg (by omega)
      have hg' := b2.lt_N w hg
      have hdg' := b2.defd w hdg
      simp only [climb_eq r _ _ _ hg, a1, climb_eq r _ _ _ hf', b1]
      exact ih f' g' hf' hg' hdf' hdg' (by omega)

theorem meetPreds_spec {po : List B} {m D} (r : Rep po m D) (w : WF po.length D) (fuel : Nat)
    (hk : 3 * po.length + 2 ≤ fuel) (idom : B) : ∀ (ps : List B) acc, acc < po.length →
    D acc ≠ po.length →
    ∃ z, meetPreds fuel po m idom ps acc = some z ∧ Anc po.length D acc z ∧
      (∀ p ∈ ps, p ∈ po → D (po.idxOf p) ≠ po.length → idom = p ∨ Anc po.length D (po.idxOf p) z) ∧
      (∀ e, Anc po.length D acc e →
        (∀ p ∈ ps, p ∈ po → D (po.idxOf p) ≠ po.length → Anc po.length D (po.idxOf p) e) →
        Anc po.length D z e) := by
  intro ps
  induction ps with
  | nil => intro acc h1 h2; exact ⟨acc, rfl, .refl _, by simp, fun e h _ => h⟩
  | cons p ps ih =>
    intro acc h1 h2
    unfold meetPreds
    by_cases he : idom = p
    · rw [if_pos he]
      obtain ⟨z, k1, k2, k3, k4⟩ := ih acc h1 h2
      refine ⟨z, k1, k2, ?_, ?_⟩
      · intro q hq hm hd
        rcases List.mem_cons.mp hq with rfl | hq
        · exact Or.inl he
        · exact k3 q hq hm hd
      · intro e h h'; exact k4 e h fun q hq => h' q (by simp [hq])
    · rw [if_neg he]
      by_cases hm : p ∈ po
      · simp only [r.mem hm]
        by_cases hd : D (po.idxOf p) ≠ po.length
        · rw [if_pos hd]
          have hi := List.idxOf_lt_length_of_mem hm
          rw [intersect_eq r w _ _ _ hi h1 hd h2 (by omega)]
          obtain ⟨a, j1, j2, j3, j4⟩ := inter_spec w fuel _ _ hi h1 hd h2 (by omega)
          simp only [j1]
          obtain ⟨z, k1, k2, k3, k4⟩ := ih a (j3.lt_N w h1) (j3.defd w h2)
          refine ⟨z, k1, j3.trans k2, ?_, ?_⟩
          · intro q hq hqm hqd
            rcases List.mem_cons.mp hq with rfl | hq
            · exact Or.inr (j2.trans k2)
            · exact k3 q hq hqm hqd
          · intro e h h'
            exact k4 e (j4 e (h' p (by simp) hm hd) h) fun q hq => h' q (by simp [hq])
        · rw [if_neg hd]
          obtain ⟨z, k1, k2, k3, k4⟩ := ih acc h1 h2
          refine ⟨z, k1, k2, ?_, ?_⟩
          · intro q hq hqm hqd
            rcases List.mem_cons.mp hq with rfl | hq
            · exact absurd hqd hd
            · exact k3 q hq hqm hqd
          · intro e h h'; exact k4 e h fun q hq => h' q (by simp [hq])
      · simp only [r.out p hm]
        obtain ⟨z, k1, k2, k3, k4⟩ := ih acc h1 h2
        refine ⟨z, k1, k2, ?_, ?_⟩
        · intro q hq hqm hqd
          rcases List.mem_cons.mp hq with rfl | hq
          · exact absurd hqm hm
          · exact k3 q hq hqm hqd
        · intro e h h'; exact k4 e h fun q hq => h' q (by simp [hq])

theorem visit_spec {po : List B} {pred : B → List B} {m D c} (g : Graph po.length (predsI po pred))
    (r : Rep po m D) (fuel : Nat) (hk : 3 * po.length + 2 ≤ fuel) (hc : c < po.length - 1)
    (inv : Inv po.length (predsI po pred) D (c + 1)) {b} (hb : po[c]? = some b) :
    ∃ z m', Near po.length (predsI po pred) D c z ∧
      visitBlock fuel po pred m b = some (m', decide (D c ≠ z)) ∧ Rep po m' (upd D c z) := by
  have w := inv.wf
  have hmb : m b = some (D c, c) := r.get _ _ hb
  obtain ⟨f, hf, hcf⟩ := g.fwd c hc
  have hdf : D f ≠ po.length := inv.defd f (by omega) (g.bnd c f hf)
  obtain ⟨pf, hpf, hpfm, hpfi⟩ := (mem_predsI hb).mp hf
  unfold visitBlock
  cases hfind : (pred b).find? (fun p => match m p with | some (d, _) => d != po.length | none => false) with
  | none =>
    rw [List.find?_eq_none] at hfind
    have := hfind pf hpf
    simp only [r.mem hpfm, hpfi] at this
    simp at this
    exact absurd this hdf
  | some idom =>
    have hmem := List.mem_of_find?_eq_some hfind
    have hprop := List.find?_some hfind
    have him : idom ∈ po := by
      by_cases h : idom ∈ po
      · exact h
      · rw [r.out _ h] at hprop; simp at hprop
    rw [r.mem him] at hprop
    have hd : D (po.idxOf idom) ≠ po.length := by simpa using hprop
    obtain ⟨z, k1, k2, k3, k4⟩ := meetPreds_spec r w fuel hk idom (pred b) (po.idxOf idom)
      (List.idxOf_lt_length_of_mem him) hd
    have near : Near po.length (predsI po pred) D c z := by
      constructor
      · intro p hp hdp
        obtain ⟨q, hq, hqm, rfl⟩ := (mem_predsI hb).mp hp
        rcases k3 q hq hqm hdp with rfl | h
        · exact k2
        · exact h
      · intro e he
        refine k4 e (he _ ((mem_predsI hb).mpr ⟨idom, hmem, him, rfl⟩) hd) ?_
        intro q hq hqm hdq
        exact he _ ((mem_predsI hb).mpr ⟨q, hq, hqm, rfl⟩) hdq
    simp only [r.mem him, k1, hmb]
    by_cases hne : D c ≠ z
    · rw [if_pos hne]
      refine ⟨z, _, near, by simp [hne]; rfl, r.nd, ?_, ?_⟩
      · intro i x hx
        have hnd := r.nd
        by_cases hxb : x = b
        · subst hxb
          have : i = c := by rw [← idxOf_of_get hnd hx, ← idxOf_of_get hnd hb]
          subst this
          simp [upd]
        · have : i ≠ c := by rintro rfl; rw [hb] at hx; simp at hx; exact hxb hx.symm
          simp [hxb, upd, this, r.get _ _ hx]
      · intro x hx
        have : x ≠ b := by rintro rfl; exact hx (List.mem_of_getElem? hb)
        simp [this, r.out x hx]
    · have hne' : D c = z := by simpa using hne
      rw [if_neg hne]
      refine ⟨z, m, near, by simp [hne'], ?_⟩
      rw [← hne', upd_self]
      exact r

def meas (N : Nat) (D : Nat → Nat) : Nat :=
  ((List.range N).map fun i => if D i = N then N + 1 else N - D i).sum

theorem sum_upd (l : List Nat) (f g : Nat → Nat) (c : Nat) (hnd : l.Nodup) (hc : c ∈ l)
    (h : ∀ i, i ≠ c → f i = g i) : (l.map f).sum + g c = (l.map g).sum + f c := by
  induction l with
  | nil => simp at hc
  | cons a l ih =>
    simp only [List.map_cons, List.sum_cons]
    rw [List.nodup_cons] at hnd
    rcases List.mem_cons.mp hc with rfl | hc
    · have : (l.map f) = (l.map g) := by
        apply List.map_congr_left
        intro i hi; exact h i (by rintro rfl; exact hnd.1 hi)
      rw [this]; omega
    · have := ih hnd.2 hc
      have := h a (by rintro rfl; exact hnd.1 hc)
      omega

theorem meas_upd {N D c z} (w : WF N D) (hc : c < N - 1) (hz : D c = N ∨ Anc N D (D c) z) (hzN : z < N) :
    meas N (upd D c z) ≤ meas N D ∧ (D c ≠ z → meas N (upd D c z) < meas N D) := by
  have h := sum_upd (List.range N) (fun i => if upd D c z i = N then N + 1 else N - upd D c z i)
    (fun i => if D i = N then N + 1 else N - D i) c List.nodup_range (by simp; omega)
    (by intro i hi; simp [upd, hi])
  have e : upd D c z c = z := by simp [upd]
  simp only [e] at h
  rw [if_neg (show ¬ z = N by omega)] at h
  unfold meas
  rcases hz with hz | hz
  · rw [if_pos hz] at h; omega
  · have := hz.le w
    by_cases hd : D c = N
    · rw [if_pos hd] at h; omega
    · rw [if_neg hd] at h; omega

theorem sweep_spec {po : List B} {pred : B → List B} (g : Graph po.length (predsI po pred)) (fuel : Nat)
    (hk : 3 * po.length + 2 ≤ fuel) : ∀ c (m : Idoms B) D ch, c ≤ po.length - 1 → Rep po m D →
    Inv po.length (predsI po pred) D c →
    ∃ m' D' ch', sweep fuel po pred (po.take c).reverse m ch = some (m', ch') ∧ Rep po m' D' ∧
      Inv po.length (predsI po pred) D' 0 ∧
      (if ch' then ch = true ∨ meas po.length D' < meas po.length D
       else ch = false ∧ D' = D ∧ ∀ i, i < c → Near po.length (predsI po pred) D i (D i)) ∧
      meas po.length D' ≤ meas po.length D := by
  intro c
  induction c with
  | zero =>
    intro m D ch hc r inv
    refine ⟨m, D, ch, by simp [sweep], r, inv, ?_, by omega⟩
    cases ch <;> simp
  | succ c ih =>
    intro m D ch hc r inv
    have hcN : c < po.length := by omega
    have hb : po[c]? = some po[c] := List.getElem?_eq_getElem hcN
    have htake : (po.take (c + 1)).reverse = po[c] :: (po.take c).reverse := by
      rw [List.take_add_one, hb]; simp
    rw [htake]
    unfold sweep
    obtain ⟨z, m1, near, hv, r1⟩ := visit_spec g r fuel hk (by omega) inv hb
    obtain ⟨inv1, hup, hcz, hzN⟩ := inv_step g (by omega) inv near
    have hm := meas_upd inv.wf (by omega) hup hzN
    simp only [hv]
    obtain ⟨m', D', ch', k1, k2, k3, k4, k5⟩ := ih m1 (upd D c z) (ch || decide (D c ≠ z)) (by omega) r1 inv1
    refine ⟨m', D', ch', k1, k2, k3, ?_, by omega⟩
    cases ch' with
    | true =>
      simp only [if_true] at k4 ⊢
      rcases k4 with k4 | k4
      · simp only [Bool.or_eq_true, decide_eq_true_eq] at k4
        rcases k4 with k4 | k4
        · exact Or.inl k4
        · have := hm.2 k4; right; omega
      · right; omega
    | false =>
      simp only [Bool.false_eq_true, if_false, Bool.or_eq_false_iff, decide_eq_false_iff_not,
        Decidable.not_not] at k4 ⊢
      obtain ⟨⟨h1, h2⟩, h3, h4⟩ := k4
      have hD : upd D c z = D := by rw [← h2]; exact upd_self D c
      rw [hD] at h3 h4
      refine ⟨h1, h3, ?_⟩
      intro i hi
      by_cases h : i = c
      · subst h; rw [h2]; exact near
      · exact h4 i (by omega)

theorem inv_restart {N : Nat} {preds : Nat → List Nat} {D} (inv : Inv N preds D 0) : Inv N preds D (N - 1) :=
  ⟨inv.wf, fun i _ h => inv.defd i (by omega) h, inv.upw, inv.sound, inv.near,
    fun c hc hd _ => inv.bel c hc hd (Or.inl (by omega))⟩

theorem iterate_spec {po : List B} {pred : B → List B} (g : Graph po.length (predsI po pred)) (fuel : Nat)
    (hk : 3 * po.length + 2 ≤ fuel) (hpos : 0 < po.length) : ∀ n (m : Idoms B) D, meas po.length D < n → Rep po m D →
    Inv po.length (predsI po pred) D (po.length - 1) →
    ∃ m' D', iterate fuel po pred n m = some m' ∧ Rep po m' D' ∧
      Inv po.length (predsI po pred) D' 0 ∧
      ∀ i, i < po.length - 1 → Near po.length (predsI po pred) D' i (D' i) := by
  intro n
  induction n with
  | zero => intro m D h; omega
  | succ n ih =>
    intro m D hn r inv
    unfold iterate
    have ht : po.reverse.tail = (po.take (po.length - 1)).reverse := by
      rw [List.tail_reverse, List.dropLast_eq_take]
    rw [ht]
    obtain ⟨m', D', ch', k1, k2, k3, k4, k5⟩ := sweep_spec g fuel hk (po.length - 1) m D false (by omega) r inv
    rw [k1]
    cases ch' with
    | true =>
      simp only [if_true, Bool.false_eq_true, false_or] at k4
      exact ih m' D' (by omega) k2 (inv_restart k3)
    | false =>
      simp only [Bool.false_eq_true, if_false, true_and] at k4
      obtain ⟨rfl, k4⟩ := k4
      exact ⟨m', D', rfl, k2, k3, k4⟩

theorem path_anc {N : Nat} {preds : Nat → List Nat} {D} (inv : Inv N preds D 0)
    (hfix : ∀ i, i < N - 1 → Near N preds D i (D i)) (g : Graph N preds) {x p} (hp : IPath N preds x p) :
    ∀ y, Anc N D x y → y ∈ p := by
  induction hp with
  | root =>
    intro y h
    cases h with
    | refl => simp
    | step a _ _ => omega
  | snoc hp hx hy ih =>
    intro z h
    cases h with
    | refl => simp
    | step a b h =>
      have hxN := g.bnd _ _ hx
      have hd := inv.defd _ (by omega) hxN
      have := (hfix _ a).anc _ hx hd
      simp [ih z (this.trans h)]

theorem filterMap_congr' {α β : Type} {l : List α} {f g : α → Option β} (h : ∀ x ∈ l, f x = g x) :
    l.filterMap f = l.filterMap g := by
  induction l with
  | nil => rfl
  | cons a l ih =>
    rw [List.filterMap_cons, List.filterMap_cons, h a (by simp), ih fun x hx => h x (by simp [hx])]

/-! ### initial state -/

theorem initIdoms_get (N : Nat) : ∀ (bs : List B) (i0 : Nat) (m : Idoms B), bs.Nodup →
    (∀ i b, bs[i]? = some b → initIdoms N bs i0 m b = some (N, i0 + i)) ∧
    (∀ b, b ∉ bs → initIdoms N bs i0 m b = m b) := by
  intro bs
  induction bs with
  | nil => intro i0 m _; exact ⟨by simp, by simp [initIdoms]⟩
  | cons a bs ih =>
    intro i0 m hnd
    rw [List.nodup_cons] at hnd
    obtain ⟨h1, h2⟩ := ih (i0 + 1) (fun x => if x = a then some (N, i0) else m x) hnd.2
    refine ⟨?_, ?_⟩
    · intro i b hb
      simp only [initIdoms]
      cases i with
      | zero =>
        simp at hb; subst hb
        rw [h2 _ hnd.1]; simp
      | succ i =>
        simp at hb
        rw [h1 i b hb]; simp; omega
    · intro b hb
      simp only [List.mem_cons, not_or] at hb
      simp only [initIdoms]
      rw [h2 _ hb.2]; simp [hb.1]

def D0 (N : Nat) : Nat → Nat := fun i => if i = N - 1 then N - 1 else N

theorem inv_init {N : Nat} {preds : Nat → List Nat} (hN : 0 < N) : Inv N preds (D0 N) (N - 1) := by
  have hu : ∀ i, i < N - 1 → D0 N i = N := by intro i hi; unfold D0; rw [if_neg (by omega)]
  have hr : D0 N (N - 1) = N - 1 := by simp [D0]
  refine ⟨⟨hN, hr, ?_⟩, ?_, ?_, ?_, ?_, ?_⟩
  · intro i hi hd; exact absurd (hu i hi) hd
  · intro i hi hiN; have : i = N - 1 := by omega
    subst this; rw [hr]; omega
  · intro i j hij hj hd; exact absurd (hu i (by omega)) hd
  · intro i hi hd; exact absurd (hu i hi) hd
  · intro i hi hd; exact absurd (hu i hi) hd
  · intro i hi hd; exact absurd (hu i hi) hd

/-- The pair listed for postorder index `i`. -/
def pairAt (po : List B) (D : Nat → Nat) (i : Nat) : Option (B × B) :=
  match po[i]?, po[D i]? with | some b, some x => some (b, x) | _, _ => none

theorem edgesOf_spec {po : List B} {m D} (r : Rep po m D) (hD : ∀ i, i < po.length → D i < po.length) :
    edgesOf po m = (List.range po.length).filterMap
      (pairAt po D) := by
  have hz : po.zipIdx = (List.range po.length).filterMap (fun i => (po[i]?).map fun b => (b, i)) := by
    have : ∀ (l : List B) k, l.zipIdx k = (List.range l.length).filterMap
        (fun i => (l[i]?).map fun b => (b, i + k)) := by
      intro l
      induction l with
      | nil => simp
      | cons a l ih =>
        intro k
        rw [List.zipIdx_cons, List.length_cons, List.range_succ_eq_map, List.filterMap_cons]
        simp only [List.getElem?_cons_zero, Option.map_some, Nat.zero_add, List.filterMap_map,
          ih (k + 1)]
        congr 1
        apply filterMap_congr'
        intro i hi
        simp only [Function.comp, List.getElem?_cons_succ]
        congr 1; funext b; congr 1; omega
    simpa using this po 0
  unfold edgesOf
  rw [hz, List.filterMap_filterMap]
  apply filterMap_congr'
  intro i hi
  have hi : i < po.length := by simpa using hi
  have hg : po[i]? = some po[i] := List.getElem?_eq_getElem hi
  have hdi := hD i hi
  have hg2 : po[D i]? = some po[D i] := List.getElem?_eq_getElem hdi
  simp only [hg, Option.map_some, Option.bind_some, r.get _ _ hg, if_true, hg2, pairAt]
  rw [if_neg (by omega), hg2]
  simp

theorem calculateDominators_idx {po : List B} {pred : B → List B} (hnd : po.Nodup) (hne : po ≠ [])
    (g : Graph po.length (predsI po pred)) :
    ∃ F, ∀ fuel, F ≤ fuel → ∃ D, WF po.length D ∧
      calculateDominators fuel po pred = some ((List.range po.length).filterMap
        (pairAt po D)) ∧
      (∀ i, i < po.length → D i < po.length) ∧
      ∀ i, i < po.length - 1 → i < D i ∧ IDom po.length (predsI po pred) (D i) i ∧
        ∀ d, d ≠ i → IDom po.length (predsI po pred) d i → IDom po.length (predsI po pred) d (D i) := by
  have hpos : 0 < po.length := List.length_pos_iff.mpr hne
  refine ⟨3 * po.length + 2 + meas po.length (D0 po.length) + 1, ?_⟩
  intro fuel hF
  obtain ⟨h1, h2⟩ := initIdoms_get po.length po 0 (fun _ => none) hnd
  have hlast : po.getLast? = some po[po.length - 1] := by
    rw [List.getLast?_eq_getElem?, List.getElem?_eq_getElem (by omega)]
  have hlast' : po[po.length - 1]? = some po[po.length - 1] := List.getElem?_eq_getElem (by omega)
  have r0 : Rep po (fun x => if x = po[po.length - 1] then
      (initIdoms po.length po 0 (fun _ => none) po[po.length - 1]).map (fun e => (e.2, e.2))
      else initIdoms po.length po 0 (fun _ => none) x) (D0 po.length) := by
    refine ⟨hnd, ?_, ?_⟩
    · intro i b hb
      by_cases hbl : b = po[po.length - 1]
      · subst hbl
        have : i = po.length - 1 := (idxOf_of_get hnd hb).symm.trans (idxOf_of_get hnd hlast')
        subst this
        simp only [if_true, h1 _ _ hb]
        simp [D0]
      · have : i ≠ po.length - 1 := by rintro rfl; rw [hlast'] at hb; simp at hb; exact hbl hb.symm
        simp only [hbl, if_false, h1 _ _ hb]
        simp [D0, this]
    · intro b hb
      have : b ≠ po[po.length - 1] := by rintro rfl; exact hb (List.getElem_mem _)
      simp only [this, if_false, h2 _ hb]
  obtain ⟨m', D', k1, k2, k3, k4⟩ := iterate_spec g fuel (by omega) hpos fuel _ _ (by omega) r0 (inv_init hpos)
  have hD : ∀ i, i < po.length → D' i < po.length := by
    intro i hi
    by_cases h : i < po.length - 1
    · exact (k3.wf.up i h (k3.defd i (by omega) hi)).2.1
    · have : i = po.length - 1 := by omega
      subst this; rw [k3.wf.root]; omega
  refine ⟨D', k3.wf, ?_, hD, ?_⟩
  · unfold calculateDominators
    simp only [hlast, k1, edgesOf_spec k2 hD]
  · intro i hi
    have hd := k3.defd i (by omega) (by omega)
    have hu := k3.wf.up i hi hd
    refine ⟨hu.1, ?_, ?_⟩
    · intro p hp
      exact path_anc k3 k4 g hp _ (.step hi hd (.refl _))
    · intro d hne hdom
      exact (k3.sound i hi hd d hdom).resolve_left hne

end Verif.Cfa
