import Verif.Cfa.Props
import Verif.DomTree.Core
/-!
# Partial correctness of `CalculateDominators` on any block order

If the iteration stops, the pairs it returns are dominators, whatever the order of the
blocks and whatever additional predecessors they list.
-/
set_option linter.unusedSimpArgs false
set_option linter.unusedVariables false
set_option linter.unusedSectionVars false
namespace Verif.DomCheck
open Verif.Cfa Verif.Cfa.Spec Verif.Cfa.Idx
variable {B : Type} [DecidableEq B]

structure Weak (N : Nat) (D : Nat → Nat) : Prop where
  pos : 0 < N
  root : D (N - 1) = N - 1
  up : ∀ i, i < N → D i ≠ N → D i < N ∧ D (D i) ≠ N

theorem weak_anc {N D x y} (w : Weak N D) (h : Anc N D x y) (hx : x < N) (hd : D x ≠ N) :
    y < N ∧ D y ≠ N := by
  induction h with
  | refl => exact ⟨hx, hd⟩
  | step a b _ ih => exact ih (w.up _ hx hd).1 (w.up _ hx hd).2

theorem weak_climb {N D} (w : Weak N D) : ∀ k f g z, f < N → g < N → D f ≠ N →
    Idx.climb D k f g = some z → Anc N D f z := by
  intro k
  induction k with
  | zero => intro f g z _ _ _ h; cases h
  | succ k ih =>
    intro f g z hf hg hd h
    unfold Idx.climb at h
    by_cases hfg : f < g
    · rw [if_pos hfg] at h
      have := w.up f hf hd
      exact .step (by omega) hd (ih _ _ _ this.1 hg this.2 h)
    · rw [if_neg hfg] at h
      cases h; exact .refl _

theorem weak_intersect {po : List B} {m D} (r : Rep po m D) (w : Weak po.length D) : ∀ k f g z,
    f < po.length → g < po.length → D f ≠ po.length → D g ≠ po.length →
    intersect po m k f g = some z → Anc po.length D f z ∧ Anc po.length D g z := by
  intro k
  induction k with
  | zero => intro f g z _ _ _ _ h; cases h
  | succ k ih =>
    intro f g z hf hg hdf hdg h
    unfold intersect at h
    by_cases he : f = g
    · rw [if_pos he] at h; cases h; exact ⟨.refl _, he ▸ .refl _⟩
    · rw [if_neg he, climb_eq r _ _ _ hg] at h
      cases hc : Idx.climb D k f g with
      | none => simp only [hc] at h; cases h
      | some f' =>
        simp only [hc] at h
        have a := weak_climb w _ _ _ _ hf hg hdf hc
        have a' := weak_anc w a hf hdf
        rw [climb_eq r _ _ _ a'.1] at h
        cases hc2 : Idx.climb D k g f' with
        | none => simp only [hc2] at h; cases h
        | some g' =>
          simp only [hc2] at h
          have b := weak_climb w _ _ _ _ hg a'.1 hdg hc2
          have b' := weak_anc w b hg hdg
          obtain ⟨h1, h2⟩ := ih _ _ _ a'.1 b'.1 a'.2 b'.2 h
          exact ⟨a.trans h1, b.trans h2⟩

theorem weak_meet {po : List B} {m D} (r : Rep po m D) (w : Weak po.length D) (fuel : Nat) (idom : B) :
    ∀ (ps : List B) acc z, acc < po.length → D acc ≠ po.length →
    meetPreds fuel po m idom ps acc = some z → Anc po.length D acc z ∧
      (∀ p ∈ ps, p ∈ po → D (po.idxOf p) ≠ po.length → idom = p ∨ Anc po.length D (po.idxOf p) z) := by
  intro ps
  induction ps with
  | nil => intro acc z _ _ h; cases h; exact ⟨.refl _, by simp⟩
  | cons p ps ih =>
    intro acc z h1 h2 h
    unfold meetPreds at h
    by_cases he : idom = p
    · rw [if_pos he] at h
      obtain ⟨k1, k2⟩ := ih _ _ h1 h2 h
      refine ⟨k1, fun q hq hm hd => ?_⟩
      rcases List.mem_cons.mp hq with rfl | hq
      · exact .inl he
      · exact k2 q hq hm hd
    · rw [if_neg he] at h
      by_cases hm : p ∈ po
      · simp only [r.mem hm] at h
        by_cases hd : D (po.idxOf p) ≠ po.length
        · rw [if_pos hd] at h
          cases hi : intersect po m fuel (po.idxOf p) acc with
          | none => simp only [hi] at h; cases h
          | some a =>
            simp only [hi] at h
            obtain ⟨j1, j2⟩ := weak_intersect r w _ _ _ _ (List.idxOf_lt_length_of_mem hm) h1 hd h2 hi
            have j3 := weak_anc w j2 h1 h2
            obtain ⟨k1, k2⟩ := ih _ _ j3.1 j3.2 h
            refine ⟨j2.trans k1, fun q hq hm' hd' => ?_⟩
            rcases List.mem_cons.mp hq with rfl | hq
            · exact .inr (j1.trans k1)
            · exact k2 q hq hm' hd'
        · rw [if_neg hd] at h
          obtain ⟨k1, k2⟩ := ih _ _ h1 h2 h
          refine ⟨k1, fun q hq hm' hd' => ?_⟩
          rcases List.mem_cons.mp hq with rfl | hq
          · exact absurd hd' hd
          · exact k2 q hq hm' hd'
      · simp only [r.out p hm] at h
        obtain ⟨k1, k2⟩ := ih _ _ h1 h2 h
        refine ⟨k1, fun q hq hm' hd' => ?_⟩
        rcases List.mem_cons.mp hq with rfl | hq
        · exact absurd hm' hm
        · exact k2 q hq hm' hd'

/-- What holds of a block once visiting it changes nothing. -/
def Stable (po : List B) (pred : B → List B) (D : Nat → Nat) (c : Nat) (b : B) : Prop :=
  ∀ p ∈ pred b, p ∈ po → D (po.idxOf p) ≠ po.length →
    D c ≠ po.length ∧ Anc po.length D (po.idxOf p) (D c)

theorem weak_visit {po : List B} {pred : B → List B} {m D c} (r : Rep po m D) (w : Weak po.length D)
    (fuel : Nat) {b m' ch} (hb : po[c]? = some b) (hc : c < po.length - 1)
    (h : visitBlock fuel po pred m b = some (m', ch)) :
    (ch = false → m' = m ∧ Stable po pred D c b) ∧
    ∃ D', Rep po m' D' ∧ Weak po.length D' := by
  have hmb : m b = some (D c, c) := r.get _ _ hb
  unfold visitBlock at h
  split at h
  next hfind =>
    cases h
    refine ⟨fun _ => ⟨rfl, fun p hp hm hd => ?_⟩, D, r, w⟩
    rw [List.find?_eq_none] at hfind
    have := hfind p hp
    simp only [r.mem hm] at this
    simp at this
    exact absurd this hd
  next idom hfind =>
    have hmem := List.mem_of_find?_eq_some hfind
    have hprop := List.find?_some hfind
    have him : idom ∈ po := by
      by_cases h : idom ∈ po
      · exact h
      · rw [r.out _ h] at hprop; simp at hprop
    rw [r.mem him] at hprop
    have hd : D (po.idxOf idom) ≠ po.length := by simpa using hprop
    have hi := List.idxOf_lt_length_of_mem him
    simp only [r.mem him] at h
    cases hz : meetPreds fuel po m idom (pred b) (po.idxOf idom) with
    | none => simp only [hz] at h; cases h
    | some z =>
      simp only [hz, hmb] at h
      obtain ⟨k1, k2⟩ := weak_meet r w fuel idom _ _ _ hi hd hz
      have kz := weak_anc w k1 hi hd
      have stable : D c = z → Stable po pred D c b := by
        intro he p hp hm hdp
        rw [he]
        refine ⟨by omega, ?_⟩
        rcases k2 p hp hm hdp with rfl | h
        · exact k1
        · exact h
      by_cases hne : D c ≠ z
      · rw [if_pos hne] at h
        cases h
        refine ⟨fun h => (by cases h), upd D c z, ⟨r.nd, ?_, ?_⟩, ?_⟩
        · intro i x hx
          have hnd := r.nd
          by_cases hxb : x = b
          · subst hxb
            have : i = c := by rw [← idxOf_of_get hnd hx, ← idxOf_of_get hnd hb]
            subst this
            simp [upd]
          · have : i ≠ c := by rintro rfl; rw [hb] at hx; simp at hx; exact hxb hx.symm
            simp [hxb, upd, this, r.get _ _ hx]
        · intro x hx
          have : x ≠ b := by rintro rfl; exact hx (List.mem_of_getElem? hb)
          simp [this, r.out x hx]
        · refine ⟨w.pos, ?_, ?_⟩
          · have : po.length - 1 ≠ c := by omega
            simp [upd, this, w.root]
          · intro i hi hdi
            have tgt : ∀ j, j < po.length → D j ≠ po.length → upd D c z j ≠ po.length := by
              intro j hj hdj
              unfold upd
              split
              · omega
              · exact hdj
            by_cases hic : i = c
            · subst hic
              simp only [upd, if_true] at hdi ⊢
              exact ⟨kz.1, tgt z kz.1 kz.2⟩
            · have e : upd D c z i = D i := by simp [upd, hic]
              rw [e] at hdi ⊢
              have := w.up i hi hdi
              exact ⟨this.1, tgt _ this.1 this.2⟩
      · have hne' : D c = z := by simpa using hne
        rw [if_neg hne] at h
        cases h
        exact ⟨fun _ => ⟨rfl, stable hne'⟩, D, r, w⟩

theorem weak_sweep {po : List B} {pred : B → List B} (fuel : Nat) : ∀ c (m : Idoms B) D ch m' ch',
    c ≤ po.length - 1 → Rep po m D → Weak po.length D →
    sweep fuel po pred (po.take c).reverse m ch = some (m', ch') →
    (ch' = false → ch = false ∧ m' = m ∧ ∀ i b, i < c → po[i]? = some b → Stable po pred D i b) ∧
    ∃ D', Rep po m' D' ∧ Weak po.length D' := by
  intro c
  induction c with
  | zero =>
    intro m D ch m' ch' hc r w h
    simp [sweep] at h
    obtain ⟨rfl, rfl⟩ := h
    exact ⟨fun h => ⟨h, rfl, fun i b hi => absurd hi (by omega)⟩, D, r, w⟩
  | succ c ih =>
    intro m D ch m' ch' hc r w h
    have hb : po[c]? = some po[c] := List.getElem?_eq_getElem (by omega)
    have htake : (po.take (c + 1)).reverse = po[c] :: (po.take c).reverse := by
      rw [List.take_add_one, hb]; simp
    rw [htake] at h
    unfold sweep at h
    cases hv : visitBlock fuel po pred m po[c] with
    | none => simp only [hv] at h; cases h
    | some q =>
      obtain ⟨m1, c1⟩ := q
      simp only [hv] at h
      obtain ⟨v1, D1, r1, w1⟩ := weak_visit r w fuel hb (by omega) hv
      obtain ⟨k1, k2⟩ := ih m1 D1 _ m' ch' (by omega) r1 w1 h
      refine ⟨fun hf => ?_, k2⟩
      obtain ⟨j1, j2, j3⟩ := k1 hf
      rw [Bool.or_eq_false_iff] at j1
      obtain ⟨hm1, hst⟩ := v1 j1.2
      subst hm1
      have hD : ∀ i, i < po.length → D1 i = D i := by
        intro i hi
        have e := r.get i _ (List.getElem?_eq_getElem hi)
        rw [r1.get i _ (List.getElem?_eq_getElem hi)] at e
        simpa using e
      obtain ⟨k1', -⟩ := ih m1 D _ m' ch' (by omega) r w h
      refine ⟨j1.1, j2, fun i b hi hib => ?_⟩
      by_cases hic : i = c
      · subst hic
        rw [hb] at hib; cases hib; exact hst
      · exact (k1' hf).2.2 i b (by omega) hib

theorem weak_iterate {po : List B} {pred : B → List B} (fuel : Nat) : ∀ n (m : Idoms B) D m',
    Rep po m D → Weak po.length D → iterate fuel po pred n m = some m' →
    ∃ D', Rep po m' D' ∧ Weak po.length D' ∧
      ∀ i b, i < po.length - 1 → po[i]? = some b → Stable po pred D' i b := by
  intro n
  induction n with
  | zero => intro m D m' _ _ h; cases h
  | succ n ih =>
    intro m D m' r w h
    unfold iterate at h
    have ht : po.reverse.tail = (po.take (po.length - 1)).reverse := by
      rw [List.tail_reverse, List.dropLast_eq_take]
    rw [ht] at h
    cases hs : sweep fuel po pred (po.take (po.length - 1)).reverse m false with
    | none => rw [hs] at h; cases h
    | some q =>
      obtain ⟨m1, c1⟩ := q
      rw [hs] at h
      obtain ⟨k1, D1, r1, w1⟩ := weak_sweep fuel _ m D _ _ _ (Nat.le_refl _) r w hs
      cases c1 with
      | true => exact ih m1 D1 m' r1 w1 h
      | false =>
        cases h
        obtain ⟨-, rfl, j⟩ := k1 rfl
        exact ⟨D, r, w, j⟩

theorem rep_init {po : List B} (hnd : po.Nodup) (hne : po ≠ []) {root} (hl : po.getLast? = some root) :
    Rep po (fun x => if x = root then
      (initIdoms po.length po 0 (fun _ => none) root).map (fun e => (e.2, e.2))
      else initIdoms po.length po 0 (fun _ => none) x) (D0 po.length) := by
  have hpos : 0 < po.length := List.length_pos_iff.mpr hne
  obtain ⟨h1, h2⟩ := initIdoms_get po.length po 0 (fun _ => none) hnd
  have hlast' : po[po.length - 1]? = some root := by rw [← List.getLast?_eq_getElem?]; exact hl
  refine ⟨hnd, ?_, ?_⟩
  · intro i b hb
    by_cases hbl : b = root
    · subst hbl
      have : i = po.length - 1 := (idxOf_of_get hnd hb).symm.trans (idxOf_of_get hnd hlast')
      subst this
      simp only [if_true, h1 _ _ hb]
      simp [D0]
    · have : i ≠ po.length - 1 := by rintro rfl; rw [hlast'] at hb; simp at hb; exact hbl hb.symm
      simp only [hbl, if_false, h1 _ _ hb]
      simp [D0, this]
  · intro b hb
    have : b ≠ root := by rintro rfl; exact hb (List.mem_of_getElem? hlast')
    simp only [this, if_false, h2 _ hb]

theorem weak_init {N : Nat} (hN : 0 < N) : Weak N (D0 N) := by
  refine ⟨hN, by simp [D0], fun i hi hd => ?_⟩
  unfold D0 at hd ⊢
  by_cases h : i = N - 1
  · subst h; simp; omega
  · rw [if_neg h] at hd; exact absurd rfl hd

/-- Pairs in the result other than (b, b) are steps of the final chain. -/
theorem mem_edgesOf {po : List B} {m D} (r : Rep po m D) (w : Weak po.length D) {b x}
    (h : (b, x) ∈ edgesOf po m) : b ∈ po ∧ x ∈ po ∧
      (b ≠ x → D (po.idxOf b) ≠ po.length ∧ po.idxOf x = D (po.idxOf b)) := by
  unfold edgesOf at h
  obtain ⟨⟨b', i⟩, hm, hx⟩ := List.mem_filterMap.mp h
  have hi : po[i]? = some b' := by simpa [List.mem_zipIdx_iff_getElem?] using hm
  simp only [r.get _ _ hi, if_true] at hx
  simp only [Option.map_eq_some_iff, Prod.mk.injEq] at hx
  obtain ⟨x', hx, rfl, rfl⟩ := hx
  have hib := idxOf_of_get r.nd hi
  refine ⟨List.mem_of_getElem? hi, List.mem_of_getElem? hx, fun hne => ?_⟩
  by_cases hd : D i = po.length
  · rw [if_pos hd, hi] at hx
    simp at hx
    exact absurd hx hne
  · rw [if_neg hd] at hx
    rw [hib]
    exact ⟨hd, idxOf_of_get r.nd hx⟩

/-- Reachability in the chains of returned pairs. -/
inductive Chain (edges : List (B × B)) : B → B → Prop
  | refl (b) : Chain edges b b
  | step {b x d} : (b, x) ∈ edges → b ≠ x → Chain edges x d → Chain edges b d

/-- Whenever `CalculateDominators` returns, its chains consist of dominators, for any graph
`E` whose reachable blocks are all listed and whose edges are all among the predecessors. -/
theorem calculateDominators_sound (fuel : Nat) (po : List B) (pred : B → List B) (root : B)
    (hnd : po.Nodup) (hl : po.getLast? = some root) (E : B → B → Prop)
    (hE : ∀ u v, E u v → u ∈ pred v) (hpo : ∀ v, Reach E root v → v ∈ po)
    (out : List (B × B)) (h : calculateDominators fuel po pred = some out) :
    (∀ b x, (b, x) ∈ out → b ∈ po ∧ x ∈ po) ∧
    ∀ b d, Reach E root b → Chain out b d → Dominates E root d b := by
  have hne : po ≠ [] := by rintro rfl; simp at hl
  have hpos : 0 < po.length := List.length_pos_iff.mpr hne
  have hlast : po[po.length - 1]? = some root := by rw [← List.getLast?_eq_getElem?]; exact hl
  unfold calculateDominators at h
  rw [hl] at h
  dsimp only at h
  cases hit : iterate fuel po pred fuel (fun x => if x = root then
      (initIdoms po.length po 0 (fun _ => none) root).map (fun e => (e.2, e.2))
      else initIdoms po.length po 0 (fun _ => none) x) with
  | none => rw [hit] at h; cases h
  | some m =>
    rw [hit] at h
    cases h
    obtain ⟨D, r, w, st⟩ := weak_iterate fuel _ _ _ _ (rep_init hnd hne hl) (weak_init hpos) hit
    refine ⟨fun b x hbx => ⟨(mem_edgesOf r w hbx).1, (mem_edgesOf r w hbx).2.1⟩, ?_⟩
    have hri : po.idxOf root = po.length - 1 := idxOf_of_get hnd hlast
    have defd : ∀ v, Reach E root v → D (po.idxOf v) ≠ po.length := by
      intro v hv
      induction hv with
      | refl => rw [hri, w.root]; omega
      | tail hu he ih =>
        rename_i u v
        have hvm := hpo v (.tail hu he)
        have hlt := List.idxOf_lt_length_of_mem hvm
        by_cases hvr : po.idxOf v = po.length - 1
        · rw [hvr, w.root]; omega
        · exact (st _ v (by omega) (getElem?_idxOf' hvm) u (hE _ _ he) (hpo u hu) ih).1
    have key : ∀ v p, Path E root v p → ∀ j b, Anc po.length D (po.idxOf v) j → po[j]? = some b → b ∈ p := by
      intro v p hp
      induction hp with
      | single =>
        intro j b hj hb
        rw [hri] at hj
        cases hj with
        | refl => rw [hlast] at hb; cases hb; simp
        | step hx _ _ => omega
      | snoc hp he ih =>
        rename_i u v p
        intro j b hj hb
        have hu := path_reach_end hp
        have hvm := hpo v (.tail hu he)
        have hlt := List.idxOf_lt_length_of_mem hvm
        cases hj with
        | refl => rw [getElem?_idxOf' hvm] at hb; cases hb; simp
        | step hx hd hj =>
          have := st _ v hx (getElem?_idxOf' hvm) u (hE _ _ he) (hpo u hu) (defd u hu)
          exact List.mem_append_left _ (ih j b (this.2.trans hj) hb)
    have hanc : ∀ {b d}, Chain (edgesOf po m) b d → b ∈ po → D (po.idxOf b) ≠ po.length →
        d ∈ po ∧ Anc po.length D (po.idxOf b) (po.idxOf d) := by
      intro b d hch
      induction hch with
      | refl => intro hb _; exact ⟨hb, .refl _⟩
      | @step b x d he hne _ ih =>
        intro hbm hbd
        obtain ⟨e1, e2, e3⟩ := mem_edgesOf r w he
        obtain ⟨e3, e4⟩ := e3 hne
        have hlt := List.idxOf_lt_length_of_mem hbm
        have hu := w.up _ hlt hbd
        obtain ⟨k1, k2⟩ := ih e2 (by rw [e4]; exact hu.2)
        refine ⟨k1, ?_⟩
        by_cases hbr : po.idxOf b = po.length - 1
        · exfalso
          rw [hbr, w.root, ← hbr] at e4
          apply hne
          have h1 := getElem?_idxOf' e1
          have h2 := getElem?_idxOf' e2
          rw [e4, h1] at h2
          exact Option.some.inj h2
        · exact .step (by omega) e3 (e4 ▸ k2)
    intro b d hb hch p hp
    obtain ⟨k1, k2⟩ := hanc hch (hpo b hb) (defd b hb)
    exact key b p hp _ d k2 (getElem?_idxOf' k1)

end Verif.DomCheck
