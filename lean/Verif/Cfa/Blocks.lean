import Verif.Cfa.Dom
set_option linter.unusedSimpArgs false
set_option linter.unusedVariables false
set_option linter.unusedSectionVars false
namespace Verif.Cfa
open Spec
variable {B : Type} [DecidableEq B]

/-! ### consequences of `IsDfs` -/

theorem kids_edge (succ : B → List B) (terminal : B → Bool) (a b : B) :
    b ∈ (if terminal a then [] else succ a) ↔ Edge succ terminal a b := by
  unfold Edge; cases terminal a <;> simp

theorem reach_kids (succ : B → List B) (terminal : B → Bool) {a b : B} :
    Reach (fun x y => y ∈ (if terminal x then [] else succ x)) a b ↔ Reach (Edge succ terminal) a b := by
  have : (fun x y => y ∈ (if terminal x then [] else succ x)) = Edge succ terminal := by
    funext x y; exact propext (kids_edge _ _ _ _)
  rw [this]

structure DfsFacts (succ : B → List B) (terminal : B → Bool) (entry : B) (es : List (Event B)) : Prop where
  preNodup : (preOf es).Nodup
  perm : (postOf es).Perm (preOf es)
  mem : ∀ x, x ∈ preOf es ↔ Reach (Edge succ terminal) entry x
  first : (preOf es).head? = some entry
  last : (postOf es).getLast? = some entry
  parent : ∀ x ∈ postOf es, x ≠ entry → ∃ y, Edge succ terminal y x ∧ Before (postOf es) x y
  backEdge : ∀ x y, (x, y) ∈ backOf es → x ∈ preOf es ∧ Edge succ terminal x y ∧
    ¬ Before (postOf es) y x ∧ Reach (Edge succ terminal) y x
  nonBack : ∀ x ∈ preOf es, ∀ y, Edge succ terminal x y → (x, y) ∈ backOf es ∨ Before (postOf es) y x

theorem dfsFacts {succ : B → List B} {terminal : B → Bool} {entry : B} {es : List (Event B)}
    (h : IsDfs succ terminal entry es) : DfsFacts succ terminal entry es := by
  obtain ⟨e, P, hk, rfl⟩ := h
  have hseen := hk.seen
  have hnd := hk.nodup
  have hperm := hk.perm
  have hcl := hk.closed
  have hpre : preOf (.pre entry :: (e ++ [.post entry])) = entry :: preOf e := by simp
  have hpost : postOf (.pre entry :: (e ++ [.post entry])) = postOf e ++ [entry] := by simp
  have hback : backOf (.pre entry :: (e ++ [.post entry])) = backOf e := by simp
  have hpermAll : (postOf e ++ [entry]).Perm (entry :: preOf e) :=
    List.perm_append_comm.trans (hperm.cons _)
  have hpreNd : (entry :: preOf e).Nodup := by
    rw [List.nodup_cons]
    exact ⟨fun h => hnd.2 _ h (by simp), hnd.1⟩
  have hpostNd : (postOf e ++ [entry]).Nodup := hpermAll.nodup_iff.mpr hpreNd
  have hP : ∀ x, x ∈ P ↔ x ∈ entry :: preOf e := by intro x; rw [hseen]; simp
  have hmem : ∀ x, x ∈ entry :: preOf e ↔ Reach (Edge succ terminal) entry x := by
    intro x
    constructor
    · intro hx
      rcases List.mem_cons.mp hx with rfl | hx
      · exact .refl _
      · obtain ⟨c, hc, hr⟩ := hk.sound x hx
        exact Reach.head ((kids_edge _ _ _ _).mp hc) ((reach_kids _ _).mp hr)
    · intro hr
      induction hr with
      | refl => simp
      | tail _ he ih =>
        have hk' := (kids_edge succ terminal _ _).mpr he
        rw [← hP]
        rcases List.mem_cons.mp ih with rfl | ih
        · exact hcl.1 _ hk'
        · exact hcl.2 _ ih _ hk'
  refine ⟨by rw [hpre]; exact hpreNd, by rw [hpre, hpost]; exact hpermAll, by rw [hpre]; exact hmem,
    by rw [hpre]; simp, by rw [hpost]; simp, ?_, ?_, ?_⟩
  · rw [hpost]
    intro x hx hne
    have hx1 : x ∈ postOf e := by simpa [hne] using hx
    rcases hk.parent x (hperm.mem_iff.mp hx1) with h | ⟨y, h1, h2⟩
    · exact ⟨entry, (kids_edge _ _ _ _).mp h, Before.across hx1 (by simp)⟩
    · exact ⟨y, (kids_edge _ _ _ _).mp h1, h2.left⟩
  · rw [hpre, hpost, hback]
    intro x y hxy
    have hcyc := hk.back_cycle (fun c hc => hc) (by simp; exact .refl _) x y hxy
    have hcyc := (reach_kids succ terminal).mp hcyc
    rcases hk.back x y hxy with ⟨rfl, h2, h3⟩ | ⟨h1, h2, h3⟩
    · have : y = x := by simpa using h3
      subst this
      exact ⟨by simp, (kids_edge _ _ _ _).mp h2, Before.irrefl hpostNd, hcyc⟩
    · refine ⟨by simp [h1], (kids_edge _ _ _ _).mp h2, ?_, hcyc⟩
      have hx1 := hperm.mem_iff.mpr h1
      rcases h3 with rfl | h3 | h3
      · exact Before.irrefl hpostNd
      · have : y = entry := by simpa using h3
        subst this
        exact Before.asymm hpostNd (Before.across hx1 (by simp))
      · exact Before.asymm hpostNd h3.left
  · rw [hpre, hpost, hback]
    intro x hx y he
    have hk' := (kids_edge succ terminal x y).mpr he
    rcases List.mem_cons.mp hx with rfl | hx
    · rcases hk.cross.1 y hk' with h | ⟨ha, hb⟩ | h
      · exact Or.inl h
      · exact absurd ha (by simpa using hb)
      · exact Or.inr (Before.across h (by simp))
    · rcases hk.cross.2 x hx y hk' with h | ⟨ha, hb⟩ | h
      · exact Or.inl h
      · exact absurd ha (by simpa using hb)
      · exact Or.inr h.left

/-! ### index paths and block paths -/

theorem Spec.Before.idx {l : List B} (hn : l.Nodup) {x y} (h : Before l x y) : l.idxOf x < l.idxOf y := by
  obtain ⟨a, b, c, rfl⟩ := h
  have h1 : (a ++ x :: b ++ y :: c)[a.length]? = some x := by simp
  have h2 : (a ++ x :: b ++ y :: c)[(a ++ x :: b).length]? = some y := by
    rw [List.getElem?_append_right (by omega)]; simp
  rw [idxOf_of_get hn h1, idxOf_of_get hn h2]
  simp

theorem path_last {E : B → B → Prop} {a b p} (h : Path E a b p) : b ∈ p := by
  cases h <;> simp

theorem path_reach_end {E : B → B → Prop} {a b p} (h : Path E a b p) : Reach E a b := by
  induction h with
  | single => exact .refl _
  | snoc _ he ih => exact .tail ih he

theorem path_reach {E : B → B → Prop} {a b p} (h : Path E a b p) : ∀ x ∈ p, Reach E a x := by
  induction h with
  | single => intro x hx; simp at hx; subst hx; exact .refl _
  | snoc hp he ih =>
    intro x hx
    simp only [List.mem_append, List.mem_singleton] at hx
    rcases hx with hx | rfl
    · exact ih x hx
    · exact .tail (path_reach_end hp) he

theorem reach_path {E : B → B → Prop} {a b} (h : Reach E a b) : ∃ p, Path E a b p := by
  induction h with
  | refl => exact ⟨_, .single _⟩
  | tail _ he ih => obtain ⟨p, hp⟩ := ih; exact ⟨_, .snoc hp he⟩

theorem path_prefix {E : B → B → Prop} {a b p} (h : Path E a b p) : ∀ x ∈ p, x ≠ b →
    ∃ q, Path E a x q ∧ q.length < p.length := by
  induction h with
  | single => intro x hx hne; simp at hx; exact absurd hx hne
  | snoc hp he ih =>
    rename_i y z p
    intro x hx hne
    simp only [List.mem_append, List.mem_singleton] at hx
    have hx := hx.resolve_right hne
    by_cases hxy : x = y
    · subst hxy; exact ⟨p, hp, by simp⟩
    · obtain ⟨q, h1, h2⟩ := ih x hx hxy
      exact ⟨q, h1, by simp; omega⟩

theorem dom_antisymm {E : B → B → Prop} {root a b} (hr : Reach E root a)
    (h1 : Dominates E root a b) (h2 : Dominates E root b a) : a = b := by
  by_cases hab : a = b
  · exact hab
  · exfalso
    have key : ∀ n p x, p.length = n → Path E root x p → (x = a ∨ x = b) → False := by
      intro n
      induction n using Nat.strongRecOn with
      | ind n ih =>
        intro p x hn hp hx
        rcases hx with rfl | rfl
        · obtain ⟨q, k1, k2⟩ := path_prefix hp b (h2 p hp) (fun h => hab h.symm)
          exact ih _ (hn ▸ k2) q b rfl k1 (Or.inr rfl)
        · obtain ⟨q, k1, k2⟩ := path_prefix hp a (h1 p hp) hab
          exact ih _ (hn ▸ k2) q a rfl k1 (Or.inl rfl)
    obtain ⟨p, hp⟩ := reach_path hr
    exact key _ p a rfl hp (Or.inl rfl)

theorem path_to_idx {po : List B} {pred : B → List B} (hnd : po.Nodup) {root} (hl : po.getLast? = some root)
    (E : B → B → Prop) (hE : ∀ u v, E u v → u ∈ pred v)
    (hcl : ∀ x, Reach E root x → x ∈ po) {x q} (h : Path E root x q) :
    Idx.IPath po.length (predsI po pred) (po.idxOf x) (q.map po.idxOf) := by
  have hne : po ≠ [] := by rintro rfl; simp at hl
  have hpos : 0 < po.length := List.length_pos_iff.mpr hne
  have hroot : po.idxOf root = po.length - 1 := by
    rw [List.getLast?_eq_getElem?] at hl
    exact idxOf_of_get hnd hl
  induction h with
  | single => simp only [List.map_cons, List.map_nil, hroot]; exact .root
  | snoc hp he ih =>
    rename_i b c p
    have hrb := path_reach hp b (path_last hp)
    have hb := hcl b hrb
    have hc := hcl c (.tail hrb he)
    rw [List.map_append]
    refine .snoc (ih) ?_ (List.idxOf_lt_length_of_mem hc)
    exact (mem_predsI (getElem?_idxOf' hc)).mpr ⟨b, hE _ _ he, hb, rfl⟩

theorem path_of_idx {po : List B} {pred : B → List B} (hnd : po.Nodup) {root} (hl : po.getLast? = some root)
    (E : B → B → Prop) (hE : ∀ u v, u ∈ pred v → u ∈ po → v ∈ po → E u v)
    {i q} (h : Idx.IPath po.length (predsI po pred) i q) :
    ∃ x p, po[i]? = some x ∧ Path E root x p ∧ ∀ y ∈ p, po.idxOf y ∈ q := by
  rw [List.getLast?_eq_getElem?] at hl
  induction h with
  | root =>
    exact ⟨root, [root], hl, .single _, by simp [idxOf_of_get hnd hl]⟩
  | snoc hp hx hy ih =>
    rename_i x y p
    obtain ⟨b, pb, h1, h2, h3⟩ := ih
    have hc : po[y]? = some po[y] := List.getElem?_eq_getElem hy
    obtain ⟨b', hb', hbm, hbi⟩ := (mem_predsI hc).mp hx
    have hbb : b' = b := by
      have := getElem?_idxOf' hbm
      rw [hbi, h1] at this
      simpa using this.symm
    subst hbb
    refine ⟨po[y], pb ++ [po[y]], hc, .snoc h2 (hE _ _ hb' hbm (List.getElem_mem hy)), ?_⟩
    intro z hz
    simp only [List.mem_append, List.mem_singleton] at hz ⊢
    rcases hz with hz | rfl
    · exact Or.inl (h3 z hz)
    · exact Or.inr (idxOf_of_get hnd hc)

theorem idom_iff {po : List B} {pred : B → List B} (hnd : po.Nodup) {root} (hl : po.getLast? = some root)
    (E : B → B → Prop) (hE1 : ∀ u v, E u v → u ∈ pred v)
    (hE2 : ∀ u v, u ∈ pred v → u ∈ po → v ∈ po → E u v)
    (hcl : ∀ x, Reach E root x → x ∈ po) {i j x y} (hi : po[i]? = some x) (hj : po[j]? = some y) :
    Idx.IDom po.length (predsI po pred) i j ↔ Dominates E root x y := by
  constructor
  · intro h p hp
    have := path_to_idx hnd hl E hE1 hcl hp
    rw [idxOf_of_get hnd hj] at this
    have := h _ this
    obtain ⟨z, hz, hzi⟩ := List.mem_map.mp this
    have hzp : z ∈ po := hcl z (path_reach hp z hz)
    have := getElem?_idxOf' hzp
    rw [hzi, hi] at this
    simp at this; rw [this]; exact hz
  · intro h p hp
    obtain ⟨y', q, h1, h2, h3⟩ := path_of_idx hnd hl E hE2 hp
    rw [hj] at h1
    simp only [Option.some.injEq] at h1; subst h1
    have := h3 _ (h _ h2)
    rwa [idxOf_of_get hnd hi] at this

/-! ### traversal roots -/

def RE (succ : B → List B) (a b : B) : Prop := b ∈ succ a

theorem edge_false (succ : B → List B) : Edge succ (fun _ => false) = RE succ := by
  funext a b; simp [Edge, RE]

theorem mem_pre_dfs [Blocks B] (succ : B → List B) (b x : B) :
    x ∈ preOf (depthFirst succ (fun _ => false) b) ↔ Reach (RE succ) b x := by
  rw [(dfsFacts (depthFirst_isDfs succ (fun _ => false) b)).mem, edge_false]

structure RootsInv (succ : B → List B) (visited res : List B) : Prop where
  vis : ∀ x, x ∈ visited ↔ ∃ r ∈ res, Reach (RE succ) r x
  first : res.Pairwise fun r s => ¬ Reach (RE succ) r s

theorem RootsInv.push [Blocks B] {succ : B → List B} {visited res} (h : RootsInv succ visited res) {b} (hb : b ∉ visited) :
    RootsInv succ (visited ++ preOf (depthFirst succ (fun _ => false) b)) (res ++ [b]) := by
  constructor
  · intro x
    simp only [List.mem_append, h.vis, mem_pre_dfs, List.mem_singleton]
    grind
  · rw [List.pairwise_append]
    refine ⟨h.first, by simp, ?_⟩
    intro r hr s hs
    simp at hs; subst hs
    intro hrs
    exact hb ((h.vis _).mpr ⟨r, hr, hrs⟩)

theorem reach_nopred {succ pred : B → List B} (hinv : ∀ u v, u ∈ pred v ↔ v ∈ succ u) {r b}
    (hb : pred b = []) (h : Reach (RE succ) r b) : r = b := by
  cases h with
  | refl => rfl
  | tail _ he =>
    have := (hinv _ _).mpr he
    rw [hb] at this; simp at this

theorem rootsNoPred_spec [Blocks B] {succ pred : B → List B} (hinv : ∀ u v, u ∈ pred v ↔ v ∈ succ u) :
    ∀ bs visited res, RootsInv succ visited res → bs.Nodup → (∀ b ∈ bs, b ∉ res) →
    ∃ visited' res', rootsNoPred succ pred bs visited res = some (visited', res') ∧
      RootsInv succ visited' res' ∧
      (∀ x, x ∈ res' ↔ x ∈ res ∨ (x ∈ bs ∧ pred x = [])) := by
  intro bs
  induction bs with
  | nil => intro visited res h _ _; exact ⟨visited, res, rfl, h, by simp⟩
  | cons b bs ih =>
    intro visited res h hnd hdisj
    rw [List.nodup_cons] at hnd
    unfold rootsNoPred
    by_cases hp : (pred b).isEmpty
    · rw [if_pos hp]
      have hp' : pred b = [] := by simpa using hp
      have hbv : b ∉ visited := by
        intro hv
        obtain ⟨r, hr, hrb⟩ := (h.vis b).mp hv
        have := reach_nopred hinv hp' hrb
        subst this
        exact hdisj r (by simp) hr
      rw [if_neg hbv]
      obtain ⟨v', r', k1, k2, k3⟩ := ih _ _ (h.push hbv) hnd.2 (by
        intro x hx
        simp only [List.mem_append, List.mem_singleton, not_or]
        exact ⟨hdisj x (by simp [hx]), by rintro rfl; exact hnd.1 hx⟩)
      refine ⟨v', r', k1, k2, ?_⟩
      intro x; rw [k3]; simp only [List.mem_append, List.mem_singleton, List.mem_cons]
      grind
    · rw [if_neg hp]
      obtain ⟨v', r', k1, k2, k3⟩ := ih _ _ h hnd.2 (fun x hx => hdisj x (by simp [hx]))
      refine ⟨v', r', k1, k2, ?_⟩
      intro x; rw [k3]; simp only [List.mem_cons]
      have : pred b ≠ [] := by simpa using hp
      grind

theorem rootsStranded_spec [Blocks B] {succ : B → List B} :
    ∀ bs visited res, RootsInv succ visited res →
    ∃ visited' res', rootsStranded succ bs visited res = (visited', res') ∧
      RootsInv succ visited' res' ∧ (∀ x ∈ bs, x ∈ visited') ∧ (∀ x ∈ visited, x ∈ visited') ∧
      (∀ x ∈ res', x ∈ res ∨ x ∈ bs) ∧ (∃ t, res' = res ++ t) := by
  intro bs
  induction bs with
  | nil => intro visited res h; exact ⟨visited, res, rfl, h, by simp, fun _ h => h, fun _ h => Or.inl h, [], by simp⟩
  | cons b bs ih =>
    intro visited res h
    unfold rootsStranded
    by_cases hb : b ∈ visited
    · rw [if_pos hb]
      obtain ⟨v', r', k1, k2, k3, k4, k5, k6⟩ := ih _ _ h
      refine ⟨v', r', k1, k2, ?_, k4, ?_, k6⟩
      · intro x hx
        rcases List.mem_cons.mp hx with rfl | hx
        · exact k4 _ hb
        · exact k3 x hx
      · intro x hx
        rcases k5 x hx with h | h
        · exact Or.inl h
        · exact Or.inr (by simp [h])
    · rw [if_neg hb]
      obtain ⟨v', r', k1, k2, k3, k4, k5, t, rfl⟩ := ih _ _ (h.push hb)
      refine ⟨v', _, k1, k2, ?_, fun x hx => k4 x (by simp [hx]), ?_, b :: t, by simp⟩
      · intro x hx
        rcases List.mem_cons.mp hx with rfl | hx
        · exact k4 _ (by simp [mem_pre_dfs]; exact Or.inr (.refl _))
        · exact k3 x hx
      · intro x hx
        rcases k5 x hx with h | h
        · simp only [List.mem_append, List.mem_singleton] at h
          rcases h with h | rfl
          · exact Or.inl h
          · exact Or.inr (by simp)
        · exact Or.inr (by simp [h])

theorem traversalRoots_spec [Blocks B] {succ pred : B → List B} (hinv : ∀ u v, u ∈ pred v ↔ v ∈ succ u)
    (bs : List B) (hnd : bs.Nodup) :
    ∃ roots, traversalRoots bs succ pred = some roots ∧ (∀ r ∈ roots, r ∈ bs) ∧
      (∀ b ∈ bs, ∃ r ∈ roots, Reach (RE succ) r b) ∧
      (∀ b ∈ bs, pred b = [] → b ∈ roots) ∧
      roots.Pairwise (fun r s => ¬ Reach (RE succ) r s) := by
  obtain ⟨v, r, k1, k2, k3⟩ := rootsNoPred_spec hinv bs [] [] ⟨by simp, by simp⟩ hnd (by simp)
  obtain ⟨v', r', j1, j2, j3, j4, j5, j6⟩ := rootsStranded_spec bs v r k2
  refine ⟨r', ?_, ?_, ?_, ?_, j2.first⟩
  · simp only [traversalRoots, k1, j1]
  · intro x hx
    rcases j5 x hx with h | h
    · rcases (k3 x).mp h with h | h
      · simp at h
      · exact h.1
    · exact h
  · intro b hb; exact (j2.vis b).mp (j3 b hb)
  · intro b hb hp
    obtain ⟨t, rfl⟩ := j6
    simp [(k3 b).mpr (Or.inr ⟨hb, hp⟩)]

end Verif.Cfa
