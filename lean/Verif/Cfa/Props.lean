import Verif.Cfa.Blocks
/-!
# C21, C22, C23: depth-first traversal, dominators, augmented CFG
-/
set_option linter.unusedSectionVars false
namespace Verif.Cfa
open Spec
variable {B : Type} [DecidableEq B] [Blocks B]

/-! ## C21 -/

/-- **C21.** On every finite graph the work-list traversal makes exactly the calls of
the textbook recursive depth-first search (in particular it terminates). -/
theorem dfs_is_depth_first_search (succ : B → List B) (terminal : B → Bool) (entry : B) :
    IsDfs succ terminal entry (depthFirst succ terminal entry) :=
  depthFirst_isDfs succ terminal entry

/-- **C21.** The preorder callback is called exactly once for each reachable block and
for no other block, starting with the entry. -/
theorem dfs_preorder_exact (succ : B → List B) (terminal : B → Bool) (entry : B) :
    (preOf (depthFirst succ terminal entry)).Nodup ∧
    (∀ x, x ∈ preOf (depthFirst succ terminal entry) ↔ Reach (Edge succ terminal) entry x) ∧
    (preOf (depthFirst succ terminal entry)).head? = some entry :=
  let f := dfsFacts (depthFirst_isDfs succ terminal entry)
  ⟨f.preNodup, f.mem, f.first⟩

/-- **C21.** The postorder callback is called exactly once for each reachable block and
for no other block, ending with the entry. -/
theorem dfs_postorder_exact (succ : B → List B) (terminal : B → Bool) (entry : B) :
    (postOf (depthFirst succ terminal entry)).Nodup ∧
    (∀ x, x ∈ postOf (depthFirst succ terminal entry) ↔ Reach (Edge succ terminal) entry x) ∧
    (postOf (depthFirst succ terminal entry)).getLast? = some entry :=
  let f := dfsFacts (depthFirst_isDfs succ terminal entry)
  ⟨f.perm.nodup_iff.mpr f.preNodup, fun x => (f.perm.mem_iff).trans (f.mem x), f.last⟩

/-- **C21.** For an edge of the explored graph, the back-edge callback is called exactly
when the target has not been left before the source is (it is still on the search
stack); nothing but explored edges is ever reported. -/
theorem dfs_back_edge_iff (succ : B → List B) (terminal : B → Bool) (entry x y : B) :
    (x, y) ∈ backOf (depthFirst succ terminal entry) ↔
      Reach (Edge succ terminal) entry x ∧ Edge succ terminal x y ∧
      ¬ Before (postOf (depthFirst succ terminal entry)) y x := by
  have f := dfsFacts (depthFirst_isDfs succ terminal entry)
  constructor
  · intro h
    obtain ⟨h1, h2, h3, _⟩ := f.backEdge x y h
    exact ⟨(f.mem x).mp h1, h2, h3⟩
  · rintro ⟨h1, h2, h3⟩
    exact (f.nonBack x ((f.mem x).mpr h1) y h2).resolve_right h3

/-- **C21.** Back edges are reported if and only if the explored graph has a cycle. -/
theorem dfs_back_edge_iff_cyclic (succ : B → List B) (terminal : B → Bool) (entry : B) :
    backOf (depthFirst succ terminal entry) ≠ [] ↔
      ∃ x y, Reach (Edge succ terminal) entry x ∧ Edge succ terminal x y ∧
        Reach (Edge succ terminal) y x := by
  have f := dfsFacts (depthFirst_isDfs succ terminal entry)
  constructor
  · intro h
    cases hb : backOf (depthFirst succ terminal entry) with
    | nil => exact absurd hb h
    | cons e es =>
      obtain ⟨x, y⟩ := e
      obtain ⟨h1, h2, _, h4⟩ := f.backEdge x y (by rw [hb]; simp)
      exact ⟨x, y, (f.mem x).mp h1, h2, h4⟩
  · rintro ⟨x, y, hx, hxy, hyx⟩ hnil
    have hnd : (postOf (depthFirst succ terminal entry)).Nodup := f.perm.nodup_iff.mpr f.preNodup
    have edge : ∀ a b, Reach (Edge succ terminal) entry a → Edge succ terminal a b →
        (postOf (depthFirst succ terminal entry)).idxOf b <
        (postOf (depthFirst succ terminal entry)).idxOf a := by
      intro a b ha hab
      rcases f.nonBack a ((f.mem a).mpr ha) b hab with h | h
      · rw [hnil] at h; simp at h
      · exact h.idx hnd
    have path : ∀ b, Reach (Edge succ terminal) y b → Reach (Edge succ terminal) entry b ∧
        (postOf (depthFirst succ terminal entry)).idxOf b ≤
        (postOf (depthFirst succ terminal entry)).idxOf y := by
      intro b hb
      induction hb with
      | refl => exact ⟨.tail hx hxy, by omega⟩
      | tail _ he ih =>
        have := edge _ _ ih.1 he
        exact ⟨.tail ih.1 he, by omega⟩
    have h1 := edge x y hx hxy
    have h2 := (path x hyx).2
    omega

/-! ## C22 -/

/-- General form of **C22**: for any list `po` that contains exactly the blocks
reachable from its last element `root`, each once, and in which every other block has
a predecessor later in the list (true of every depth-first postorder),
`CalculateDominators` terminates without undefined behaviour and returns, for the
blocks of `po` in order, the immediate dominator (the root being its own). -/
theorem calculateDominators_exact (po : List B) (pred : B → List B) (root : B)
    (hnd : po.Nodup) (hl : po.getLast? = some root)
    (hreach : ∀ x, x ∈ po ↔ Reach (fun u v => u ∈ pred v) root x)
    (hpar : ∀ x ∈ po, x ≠ root → ∃ y ∈ pred x, Before po x y) :
    ∃ F, ∀ fuel, F ≤ fuel → ∃ out, calculateDominators fuel po pred = some out ∧
      out.map (·.1) = po ∧
      ∀ b d, (b, d) ∈ out ↔ b ∈ po ∧
        ((b = root ∧ d = root) ∨ (b ≠ root ∧ IsIdom (fun u v => u ∈ pred v) root d b)) := by
  have hne : po ≠ [] := by rintro rfl; simp at hl
  have hpos : 0 < po.length := List.length_pos_iff.mpr hne
  have hl' : po[po.length - 1]? = some root := by rw [← List.getLast?_eq_getElem?]; exact hl
  have g : Idx.Graph po.length (predsI po pred) := by
    constructor
    · intro i p hp
      unfold predsI at hp
      split at hp
      · simp at hp
      · obtain ⟨q, _, hq⟩ := List.mem_filterMap.mp hp
        split at hq
        · rename_i hm; simp at hq; subst hq; exact List.idxOf_lt_length_of_mem hm
        · simp at hq
    · intro i hi
      have hb : po[i]? = some po[i] := List.getElem?_eq_getElem (by omega)
      have hnr : po[i] ≠ root := by
        intro h; rw [h] at hb
        have := idxOf_of_get hnd hb
        have := idxOf_of_get hnd hl'
        omega
      obtain ⟨y, hy, hbef⟩ := hpar _ (List.getElem_mem (by omega)) hnr
      refine ⟨po.idxOf y, (mem_predsI hb).mpr ⟨y, hy, hbef.mem.2, rfl⟩, ?_⟩
      have := hbef.idx hnd
      rwa [idxOf_of_get hnd hb] at this
  obtain ⟨F, hF⟩ := calculateDominators_idx hnd hne g
  refine ⟨F, fun fuel hfuel => ?_⟩
  obtain ⟨D, w, h1, h2, h3⟩ := hF fuel hfuel
  have hout : ∀ b d, (b, d) ∈ (List.range po.length).filterMap (pairAt po D) ↔
      ∃ i, po[i]? = some b ∧ po[D i]? = some d := by
    intro b d
    simp only [List.mem_filterMap, List.mem_range]
    constructor
    · rintro ⟨i, hi, h⟩
      unfold pairAt at h
      split at h
      · simp only [Option.some.injEq, Prod.mk.injEq] at h
        obtain ⟨rfl, rfl⟩ := h
        exact ⟨i, by assumption, by assumption⟩
      · simp at h
    · rintro ⟨i, h1, h2⟩
      exact ⟨i, (List.getElem?_eq_some_iff.mp h1).1, by simp [pairAt, h1, h2]⟩
  have hdom := fun {i j x y} (hi : po[i]? = some x) (hj : po[j]? = some y) =>
    idom_iff hnd hl (fun u v => u ∈ pred v) (fun u v h => h) (fun u v h _ _ => h)
      (fun x h => (hreach x).mpr h) hi hj
  have his : ∀ i, i < po.length - 1 → ∀ b d, po[i]? = some b → po[D i]? = some d →
      IsIdom (fun u v => u ∈ pred v) root d b := by
    intro i hi b d hb hd
    obtain ⟨k1, k2, k3⟩ := h3 i hi
    refine ⟨?_, (hdom hd hb).mp k2, ?_⟩
    · rintro rfl
      have := idxOf_of_get hnd hb
      have := idxOf_of_get hnd hd
      omega
    · intro x hx hxb
      have hxp : x ∈ po := by
        obtain ⟨p, hp⟩ := reach_path ((hreach b).mp (List.mem_of_getElem? hb))
        exact (hreach x).mpr (path_reach hp x (hxb p hp))
      have hxi := getElem?_idxOf' hxp
      refine (hdom hxi hd).mp (k3 _ ?_ ((hdom hxi hb).mpr hxb))
      intro h
      rw [h, hb] at hxi
      simp at hxi; exact hx hxi.symm
  refine ⟨_, h1, ?_, ?_⟩
  · rw [List.map_filterMap]
    have : ∀ i ∈ List.range po.length, (pairAt po D i).map (·.1) = po[i]? := by
      intro i hi
      unfold pairAt
      have hi : i < po.length := by simpa using hi
      rw [List.getElem?_eq_getElem hi, List.getElem?_eq_getElem (h2 i hi)]; rfl
    rw [filterMap_congr' this]
    have : ∀ (l : List B), (List.range l.length).filterMap (fun i => l[i]?) = l := by
      intro l
      induction l with
      | nil => rfl
      | cons a l ih =>
        rw [List.length_cons, List.range_succ_eq_map, List.filterMap_cons]
        simp only [List.getElem?_cons_zero, List.filterMap_map]
        congr 1
    exact this po
  · intro b d
    rw [hout]
    constructor
    · rintro ⟨i, hb, hd⟩
      have hi := (List.getElem?_eq_some_iff.mp hb).1
      refine ⟨List.mem_of_getElem? hb, ?_⟩
      by_cases hr : i < po.length - 1
      · right
        refine ⟨?_, his i hr b d hb hd⟩
        rintro rfl
        have := idxOf_of_get hnd hb
        have := idxOf_of_get hnd hl'
        omega
      · have : i = po.length - 1 := by omega
        subst this
        rw [w.root] at hd
        rw [hl'] at hb hd
        simp at hb hd
        exact Or.inl ⟨hb.symm, hd.symm⟩
    · rintro ⟨hm, h⟩
      rcases h with ⟨rfl, rfl⟩ | ⟨hne', hid⟩
      · exact ⟨po.length - 1, hl', by rw [w.root]; exact hl'⟩
      · have hb := getElem?_idxOf' hm
        have hi := List.idxOf_lt_length_of_mem hm
        refine ⟨_, hb, ?_⟩
        have hr : po.idxOf b < po.length - 1 := by
          by_cases h : po.idxOf b < po.length - 1
          · exact h
          · have : po.idxOf b = po.length - 1 := by omega
            rw [this, hl'] at hb; simp at hb; exact absurd hb.symm hne'
        have hd := List.getElem?_eq_getElem (h2 _ hi)
        have hid' := his _ hr b _ hb hd
        have e : po[D (po.idxOf b)]'(h2 _ hi) = d := by
          refine dom_antisymm (E := fun u v => u ∈ pred v) (root := root) ?_ ?_ ?_
          · exact (hreach _).mp (List.getElem_mem _)
          · exact hid.2.2 _ hid'.1 hid'.2.1
          · exact hid'.2.2 _ hid.1 hid.2.1
        rw [hd, e]

/-- **C22.** For every finite graph with consistent successor and predecessor
functions and every entry block: running `CalculateDominators` on the postorder of a
depth-first traversal from the entry terminates without undefined behaviour, lists the
reachable blocks in postorder, and pairs each of them with its immediate dominator
(and the entry with itself) — exactly those pairs. -/
theorem dominators_of_traversal (succ pred : B → List B) (hinv : ∀ u v, u ∈ pred v ↔ v ∈ succ u)
    (entry : B) :
    ∃ F, ∀ fuel, F ≤ fuel → ∃ out,
      calculateDominators fuel (postOf (depthFirst succ (fun _ => false) entry)) pred = some out ∧
      out.map (·.1) = postOf (depthFirst succ (fun _ => false) entry) ∧
      ∀ b d, (b, d) ∈ out ↔ Reach (fun u v => v ∈ succ u) entry b ∧
        ((b = entry ∧ d = entry) ∨ (b ≠ entry ∧ IsIdom (fun u v => v ∈ succ u) entry d b)) := by
  have hE : (fun u v => u ∈ pred v) = (fun u v => v ∈ succ u) := by
    funext u v; exact propext (hinv u v)
  have f := dfsFacts (depthFirst_isDfs succ (fun _ => false) entry)
  have hEdge : Edge succ (fun _ => false) = (fun u v => v ∈ succ u) := by
    funext u v; simp [Edge]
  have hm : ∀ x, x ∈ postOf (depthFirst succ (fun _ => false) entry) ↔
      Reach (fun u v => v ∈ succ u) entry x := by
    intro x; rw [f.perm.mem_iff, f.mem, hEdge]
  obtain ⟨F, hF⟩ := calculateDominators_exact (postOf (depthFirst succ (fun _ => false) entry)) pred entry
    (f.perm.nodup_iff.mpr f.preNodup) f.last (by intro x; rw [hE]; exact hm x)
    (by
      intro x hx hne
      obtain ⟨y, h1, h2⟩ := f.parent x hx hne
      exact ⟨y, (hinv _ _).mpr h1.2, h2⟩)
  refine ⟨F, fun fuel hfuel => ?_⟩
  obtain ⟨out, h1, h2, h3⟩ := hF fuel hfuel
  refine ⟨out, h1, h2, ?_⟩
  intro b d
  rw [h3, hm, hE]

/-- Non-vacuity of **C22**: a loop with a conditional inside (entry 0, header 1,
branches 2 and 3, latch 4 going back to 1) has consistent edge functions. -/
example : ∃ succ pred : Fin 5 → List (Fin 5), (∀ u v, u ∈ pred v ↔ v ∈ succ u) ∧
    succ 4 = [1] ∧ succ 1 = [2, 3] :=
  ⟨fun | 0 => [1] | 1 => [2, 3] | 2 => [4] | 3 => [4] | 4 => [1],
   fun | 0 => [] | 1 => [0, 4] | 2 => [1] | 3 => [1] | 4 => [2, 3], by decide, rfl, rfl⟩

/-- The precondition of `CalculateDominators` is real: on an empty postorder the code
dereferences the back of an empty vector. -/
theorem calculateDominators_empty (fuel : Nat) (pred : B → List B) :
    calculateDominators fuel [] pred = none := rfl

/-! ## C23 -/

/-- **C23.** With consistent edge functions and a duplicate-free block list,
`TraversalRoots` succeeds; the roots are blocks of the list, every block of the list
is reachable from one of them, every block without predecessors is a root, and no root
is reachable from a root chosen before it. -/
theorem traversal_roots_cover (succ pred : B → List B) (hinv : ∀ u v, u ∈ pred v ↔ v ∈ succ u)
    (blocks : List B) (hnd : blocks.Nodup) :
    ∃ roots, traversalRoots blocks succ pred = some roots ∧ (∀ r ∈ roots, r ∈ blocks) ∧
      (∀ b ∈ blocks, ∃ r ∈ roots, Reach (fun u v => v ∈ succ u) r b) ∧
      (∀ b ∈ blocks, pred b = [] → b ∈ roots) ∧
      roots.Pairwise (fun r s => ¬ Reach (fun u v => v ∈ succ u) r s) :=
  traversalRoots_spec hinv blocks hnd

/-- The header comment promises a *minimal* set of roots. That is false: on two blocks
with edges 0→0, 1→1, 1→0 both blocks are returned although block 1 alone reaches
both. -/
theorem traversal_roots_not_minimal :
    ∃ (succ pred : Fin 2 → List (Fin 2)), (∀ u v, u ∈ pred v ↔ v ∈ succ u) ∧
      traversalRoots [0, 1] succ pred = some [0, 1] ∧
      ∀ b : Fin 2, Reach (fun u v => v ∈ succ u) 1 b := by
  refine ⟨fun | 0 => [0] | 1 => [1, 0], fun | 0 => [0, 1] | 1 => [1], by decide, ?_, ?_⟩
  · obtain ⟨roots, h1, h2, h3, h4, h5⟩ := traversal_roots_cover
      (fun | 0 => [0] | 1 => [1, 0] : Fin 2 → List (Fin 2))
      (fun | 0 => [0, 1] | 1 => [1] : Fin 2 → List (Fin 2)) (by decide) [0, 1] (by decide)
    have hv : ∀ x : Fin 2, x ∈ preOf (depthFirst (fun | 0 => [0] | 1 => [1, 0] : Fin 2 → List (Fin 2))
        (fun _ => false) 0) ↔ x = 0 := by
      intro x
      rw [mem_pre_dfs]
      constructor
      · intro h
        induction h with
        | refl => rfl
        | tail _ he ih => subst ih; simpa [RE] using he
      · rintro rfl; exact .refl _
    have h1v : (1 : Fin 2) ∉ preOf (depthFirst (fun | 0 => [0] | 1 => [1, 0] : Fin 2 → List (Fin 2))
        (fun _ => false) 0) := by rw [hv]; decide
    simp [traversalRoots, rootsNoPred, rootsStranded, h1v]
  · intro b
    match b with
    | 0 => exact .tail (.refl _) (by decide)
    | 1 => exact .refl _

/-- **C23.** The augmented CFG: given the blocks of a function (closed under edges) and
two isolated pseudo blocks, the augmented successor and predecessor functions are
inverse to each other, every block is reachable from the pseudo entry, and the pseudo
exit is reachable from every block. -/
theorem augmented_cfg_covers (ordered : List B) (pe px : B) (succ pred : B → List B)
    (hinv : ∀ u v, u ∈ pred v ↔ v ∈ succ u) (hnd : ordered.Nodup)
    (hpe : pe ∉ ordered) (hpx : px ∉ ordered) (hne : pe ≠ px)
    (hcl : ∀ u v, v ∈ succ u → u ∈ ordered ∧ v ∈ ordered) :
    ∃ asucc apred, augmented ordered pe px succ pred = some (asucc, apred) ∧
      (∀ u v, u ∈ apred v ↔ v ∈ asucc u) ∧
      (∀ b ∈ ordered, Reach (fun u v => v ∈ asucc u) pe b) ∧
      (∀ b ∈ ordered, Reach (fun u v => v ∈ asucc u) b px) ∧
      (∀ u v, u ∈ ordered → v ∈ ordered → (v ∈ asucc u ↔ v ∈ succ u)) := by
  obtain ⟨src, s1, s2, s3, s4, s5⟩ := traversal_roots_cover succ pred hinv ordered hnd
  obtain ⟨snk, t1, t2, t3, t4, t5⟩ := traversal_roots_cover pred succ (fun u v => (hinv v u).symm)
    ordered.reverse ((List.reverse_perm ordered).nodup_iff.mpr hnd)
  have t2 : ∀ r ∈ snk, r ∈ ordered := fun r hr => by simpa using t2 r hr
  have pe_s : pe ∉ snk := fun h => hpe (t2 _ h)
  have px_s : px ∉ src := fun h => hpx (s2 _ h)
  have pe_src : pe ∉ src := fun h => hpe (s2 _ h)
  have px_snk : px ∉ snk := fun h => hpx (t2 _ h)
  have spe : ∀ x, x ∉ succ pe := fun x h => hpe (hcl _ _ h).1
  have spx : ∀ x, x ∉ succ px := fun x h => hpx (hcl _ _ h).1
  have tpe : ∀ x, pe ∉ succ x := fun x h => hpe (hcl _ _ h).2
  have tpx : ∀ x, px ∉ succ x := fun x h => hpx (hcl _ _ h).2
  refine ⟨_, _, by simp only [augmented, s1, t1]; exact rfl, ?_, ?_, ?_, ?_⟩
  · intro u v
    by_cases hv : v = px
    · subst hv
      by_cases hu : u ∈ snk
      · simp [hu]
      · by_cases hup : u = pe
        · subst hup; simp [hu, px_s]
        · simp [hu, hup, tpx]
    · by_cases hvs : v ∈ src
      · by_cases hu : u ∈ snk
        · have : u ≠ pe := by rintro rfl; exact pe_s hu
          simp [hv, hvs, hu, hinv, this]
        · by_cases hup : u = pe
          · subst hup; simp [hv, hvs, hu]
          · simp [hv, hvs, hu, hup, hinv]
      · by_cases hu : u ∈ snk
        · simp [hv, hvs, hu, hinv]
        · by_cases hup : u = pe
          · subst hup; simp [hv, hvs, hu, hinv, spe]
          · simp [hv, hvs, hu, hup, hinv]
  · intro b hb
    obtain ⟨r, hr, hrb⟩ := s3 b hb
    have start : pe ≠ r := by rintro rfl; exact pe_src hr
    have h0 : Reach (fun u v => v ∈ if u ∈ snk then px :: succ u else if u = pe then src else succ u) pe r :=
      .tail (.refl _) (by simp [pe_s, hr])
    refine Reach.trans h0 ?_
    clear h0
    induction hrb with
    | refl => exact .refl _
    | tail hp he ih =>
      rename_i x y
      refine .tail (ih (hcl _ _ he).1) ?_
      have hx : x ≠ pe := by rintro rfl; exact spe _ he
      by_cases hxs : x ∈ snk
      · simp [hxs, he]
      · simp [hxs, hx, he]
  · intro b hb
    obtain ⟨r, hr, hrb⟩ := t3 b (by simpa using hb)
    have h0 : Reach (fun u v => v ∈ if u ∈ snk then px :: succ u else if u = pe then src else succ u) r px :=
      .tail (.refl _) (by simp [hr])
    suffices h : Reach (fun u v => v ∈ if u ∈ snk then px :: succ u else if u = pe then src else succ u) b r from
      h.trans h0
    clear h0
    induction hrb with
    | refl => exact .refl _
    | tail hp he ih =>
      rename_i x y
      have he' : x ∈ succ y := (hinv y x).mp he
      refine Reach.head ?_ (ih (hcl _ _ he').2)
      have hy : y ≠ pe := by rintro rfl; exact spe _ he'
      by_cases hys : y ∈ snk
      · simp [hys, he']
      · simp [hys, hy, he']
  · intro u v hu hv
    have h1 : u ≠ pe := by rintro rfl; exact hpe hu
    have h2 : v ≠ px := by rintro rfl; exact hpx hv
    by_cases hs : u ∈ snk
    · simp [hs, h2]
    · simp [hs, h1]

/-- Non-vacuity of **C23**: a function with an unreachable two-block cycle
(0→1, and 2⇄3), pseudo entry 4 and pseudo exit 5. -/
example : ∃ succ pred : Fin 6 → List (Fin 6), (∀ u v, u ∈ pred v ↔ v ∈ succ u) ∧
    (∀ u v, v ∈ succ u → u ∈ [0, 1, 2, 3] ∧ v ∈ [0, 1, 2, 3]) ∧ succ 2 = [3] ∧ succ 3 = [2] :=
  ⟨fun | 0 => [1] | 2 => [3] | 3 => [2] | _ => [],
   fun | 1 => [0] | 2 => [3] | 3 => [2] | _ => [], by decide, by decide, rfl, rfl⟩

end Verif.Cfa
