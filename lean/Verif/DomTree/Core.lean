import Verif.DomTree.Build
import Verif.Cfa.Props
/-!
# The tree of a rooted graph answers dominance exactly
-/
set_option linter.unusedSimpArgs false
set_option linter.unusedVariables false
set_option linter.unusedSectionVars false
namespace Verif.DomTree
open Verif.Cfa Verif.Cfa.Spec
variable {B : Type} [DecidableEq B]

theorem dom_self (E : B → B → Prop) (root b : B) : Dominates E root b b := fun _ hp => path_last hp

theorem path_upto {E : B → B → Prop} {a b p} (h : Path E a b p) : ∀ x ∈ p,
    ∃ q, Path E a x q ∧ (∀ y ∈ q, y ∈ p) := by
  induction h with
  | single => intro x hx; simp at hx; subst hx; exact ⟨_, .single _, by simp⟩
  | snoc hp he ih =>
    intro x hx
    simp only [List.mem_append, List.mem_singleton] at hx
    rcases hx with hx | rfl
    · obtain ⟨q, h1, h2⟩ := ih x hx
      exact ⟨q, h1, fun y hy => by simp [h2 y hy]⟩
    · exact ⟨_, .snoc hp he, fun y hy => hy⟩

theorem dom_trans {E : B → B → Prop} {root a b c} (h1 : Dominates E root a b) (h2 : Dominates E root b c) :
    Dominates E root a c := by
  intro p hp
  obtain ⟨q, k1, k2⟩ := path_upto hp b (h2 p hp)
  exact k2 _ (h1 q k1)

theorem path_head {E : B → B → Prop} {a b p} (h : Path E a b p) : a ∈ p := by
  induction h with
  | single => simp
  | snoc _ _ ih => simp [ih]

theorem root_dom (E : B → B → Prop) (root b : B) : Dominates E root root b := fun _ hp => path_head hp

theorem dom_reach {E : B → B → Prop} {root a b} (hb : Reach E root b) (h : Dominates E root a b) :
    Reach E root a := by
  obtain ⟨p, hp⟩ := reach_path hb
  exact path_reach hp a (h p hp)

/-- `kids` is the tree of immediate dominators of the graph `E` rooted at `root`. -/
structure IdomTree (E : B → B → Prop) (root : B) (kids : B → List B) : Prop where
  iff : ∀ d b, b ∈ kids d ↔ Reach E root b ∧ b ≠ root ∧ IsIdom E root d b
  ex : ∀ b, Reach E root b → b ≠ root → ∃ d, IsIdom E root d b

theorem IdomTree.anc_iff {E : B → B → Prop} {root : B} {kids} (T : IdomTree E root kids) {a b : B}
    (hb : Reach E root b) : Reach (fun x y => y ∈ kids x) a b ↔ Dominates E root a b := by
  constructor
  · intro h
    clear hb
    induction h with
    | refl => exact dom_self _ _ _
    | tail _ he ih => exact dom_trans ih ((T.iff _ _).mp he).2.2.2.1
  · obtain ⟨p, hp⟩ := reach_path hb
    generalize hn : p.length = n
    induction n using Nat.strongRecOn generalizing p b with
    | ind n ih =>
      intro hd
      by_cases hab : a = b
      · subst hab; exact .refl _
      · by_cases hbr : b = root
        · subst hbr
          have := hd _ (.single b)
          simp at this; exact absurd this hab
        · obtain ⟨d, hid⟩ := T.ex b hb hbr
          obtain ⟨q, k1, k2⟩ := path_prefix hp d (hid.2.1 p hp) hid.1
          have := ih q.length (by omega) (path_reach_end k1) q k1 rfl (hid.2.2 a hab hd)
          exact .tail this ((T.iff _ _).mpr ⟨hb, hbr, hid⟩)

theorem idom_unique {E : B → B → Prop} {root d d' b} (hb : Reach E root b)
    (h : IsIdom E root d b) (h' : IsIdom E root d' b) : d = d' :=
  dom_antisymm (dom_reach hb h.2.1) (h'.2.2 d h.1 h.2.1) (h.2.2 d' h'.1 h'.2.1)

/-- Specification of a tree for the graph `E` rooted at `root`. -/
structure Answers (E : B → B → Prop) (root : B) (t : Tree B) : Prop where
  reachable : ∀ x, t.reachable x = true ↔ Reach E root x
  idom : ∀ x d, t.immediateDominator x = some d ↔ Reach E root x ∧ x ≠ root ∧ IsIdom E root d x
  idomEx : ∀ x, Reach E root x → x ≠ root → ∃ d, t.immediateDominator x = some d
  dominates : ∀ a b, t.dominates a b = true ↔ Reach E root a ∧ Reach E root b ∧ Dominates E root a b

theorem tree_answers [Blocks B] (succ : B → List B) (root : B) (edges : List (B × B))
    (hfst : (edges.map (·.1)).Nodup) (hmap : ∀ x, x ∈ edges.map (·.1) ↔ Reach (fun u v => v ∈ succ u) root x)
    (hedge : ∀ b d, (b, d) ∈ edges ↔ Reach (fun u v => v ∈ succ u) root b ∧
        ((b = root ∧ d = root) ∨ (b ≠ root ∧ IsIdom (fun u v => v ∈ succ u) root d b))) :
    Answers (fun u v => v ∈ succ u) root (resetDFNumbering (addEdges edges {})) := by
  generalize hE : (fun u v => v ∈ succ u) = E at *
  have bt := addEdges_spec edges {}
  generalize ht : addEdges edges {} = t at *
  have hroots : t.roots = [root] := by
    have h1 : ∀ r, r ∈ t.roots ↔ r = root := by
      intro r
      rw [bt.roots, hedge]
      simp only [List.not_mem_nil, false_or]
      constructor
      · rintro ⟨_, h | ⟨_, h⟩⟩
        · exact h.1
        · exact absurd rfl h.1
      · rintro rfl; exact ⟨.refl _, Or.inl ⟨rfl, rfl⟩⟩
    have h2 := bt.rootsNodup (by simp)
    cases hr : t.roots with
    | nil => have := (h1 root).mpr rfl; simp [hr] at this
    | cons x xs =>
      rw [hr] at h1 h2
      have hx := (h1 x).mp (by simp)
      subst hx
      cases xs with
      | nil => rfl
      | cons y ys =>
        have hy := (h1 y).mp (by simp)
        simp [hy] at h2
  have hsome : ∀ x, (t.nodes x).isSome = true ↔ Reach E root x := by
    intro x
    rw [bt.isSome]
    simp only [Option.isSome_none, Bool.false_eq_true, false_or]
    constructor
    · rintro ⟨⟨b, d⟩, he, h⟩
      obtain ⟨k1, k2⟩ := (hedge b d).mp he
      rcases h with rfl | rfl
      · exact k1
      · rcases k2 with ⟨rfl, rfl⟩ | k2
        · exact k1
        · exact dom_reach k1 k2.2.2.1
    · intro h
      obtain ⟨e, he, rfl⟩ := List.mem_map.mp ((hmap x).mpr h)
      exact ⟨e, he, Or.inl rfl⟩
  have hkids : ∀ d b, b ∈ t.children d ↔ Reach E root b ∧ b ≠ root ∧ IsIdom E root d b := by
    intro d b
    rw [bt.children, hedge]
    simp only [Tree.children, Option.map_none, Option.getD_none, List.not_mem_nil, false_or]
    constructor
    · rintro ⟨⟨h1, h2⟩, h3⟩
      rcases h2 with ⟨rfl, rfl⟩ | h2
      · exact absurd rfl h3
      · exact ⟨h1, h2.1, h2.2⟩
    · rintro ⟨h1, h2, h3⟩
      exact ⟨⟨h1, Or.inr ⟨h2, h3⟩⟩, fun h => h3.1 h.symm⟩
  have hex : ∀ b, Reach E root b → b ≠ root → ∃ d, IsIdom E root d b := by
    intro b hb hne
    obtain ⟨⟨b', d⟩, he, hb'⟩ := List.mem_map.mp ((hmap b).mpr hb)
    dsimp at hb'; subst hb'
    rcases ((hedge b' d).mp he).2 with h | h
    · exact absurd h.1 hne
    · exact ⟨d, h.2⟩
  have T : IdomTree E root t.children := ⟨hkids, hex⟩
  have hreach : ∀ b, Reach E root b → Reach (fun x y => y ∈ t.children x) root b :=
    fun b hb => (T.anc_iff hb).mpr (root_dom _ _ _)
  have f := dfsFacts (depthFirst_isDfs t.children (fun _ => false) root)
  have hEdge : Edge t.children (fun _ => false) = (fun x y => y ∈ t.children x) := by
    funext x y; simp [Edge]
  have hfm := f.mem
  rw [hEdge] at hfm
  have hcn := calls_nodup f.preNodup (f.perm.nodup_iff.mpr f.preNodup)
  have hreset : resetDFNumbering t = (number (depthFirst t.children (fun _ => false) root) 0 t).1 := by
    unfold resetDFNumbering
    rw [hroots]
    simp only [resetDFNumbering.go]
  rw [hreset]
  obtain ⟨sh, num⟩ := number_spec (depthFirst t.children (fun _ => false) root) 0 t hcn
  have hidom : ∀ x d, t.immediateDominator x = some d ↔ Reach E root x ∧ x ≠ root ∧ IsIdom E root d x := by
    intro x d
    have mk : ∀ d', Reach E root x → x ≠ root → IsIdom E root d' x → t.immediateDominator x = some d' := by
      intro d' k1 k2 k3
      exact bt.idomNew hfst x d' ((hedge x d').mpr ⟨k1, Or.inr ⟨k2, k3⟩⟩) (fun h => k3.1 h.symm)
    constructor
    · intro h
      have hx : Reach E root x := by
        rw [← hsome]
        rw [idom_bind] at h
        cases hn : t.nodes x with
        | none => simp [hn] at h
        | some n => rfl
      have hne : x ≠ root := by
        rintro rfl
        rw [bt.idomSelf hfst x ((hedge x x).mpr ⟨hx, Or.inl ⟨rfl, rfl⟩⟩)] at h
        cases h
      obtain ⟨d', hd'⟩ := hex x hx hne
      rw [mk d' hx hne hd'] at h
      cases h
      exact ⟨hx, hne, hd'⟩
    · rintro ⟨k1, k2, k3⟩
      exact mk d k1 k2 k3
  refine ⟨?_, ?_, ?_, ?_⟩
  · intro x
    rw [Tree.reachable, sh.isSome]; exact hsome x
  · intro x d
    rw [sh.idom]; exact hidom x d
  · intro x hx hne
    obtain ⟨d, hd⟩ := hex x hx hne
    exact ⟨d, by rw [sh.idom]; exact (hidom x d).mpr ⟨hx, hne, hd⟩⟩
  · intro a b
    have hno : ∀ x, ¬ Reach E root x → (number (depthFirst t.children (fun _ => false) root) 0 t).1.nodes x = none := by
      intro x hx
      have := sh.isSome x
      cases hn : (number (depthFirst t.children (fun _ => false) root) 0 t).1.nodes x with
      | none => rfl
      | some n => rw [hn] at this; exact absurd ((hsome x).mp this.symm) hx
    unfold Tree.dominates
    by_cases ha : Reach E root a
    · by_cases hb : Reach E root b
      · obtain ⟨na, hna⟩ := Option.isSome_iff_exists.mp ((hsome a).mpr ha)
        obtain ⟨nb, hnb⟩ := Option.isSome_iff_exists.mp ((hsome b).mpr hb)
        obtain ⟨ma, a1, a2, a3⟩ := num a na hna
        obtain ⟨mb, b1, b2, b3⟩ := num b nb hnb
        rw [a1, b1]
        dsimp only
        by_cases hab : a = b
        · subst hab
          simp only [if_true]
          exact ⟨fun _ => ⟨ha, ha, dom_self _ _ _⟩, fun _ => trivial⟩
        · rw [if_neg hab]
          have ma' := (hfm a).mpr (hreach a ha)
          have mb' := (hfm b).mpr (hreach b hb)
          rw [if_pos ((mem_calls_pre _ _).mpr ma')] at a2
          rw [if_pos ((mem_calls_pre _ _).mpr mb')] at b2
          rw [if_pos ((mem_calls_post _ _).mpr (f.perm.mem_iff.mpr ma'))] at a3
          rw [if_pos ((mem_calls_post _ _).mpr (f.perm.mem_iff.mpr mb'))] at b3
          have key := dfs_nested t.children root
            (fun x y z hx hy => by
              obtain ⟨k1, k2, k3⟩ := (hkids x z).mp hx
              obtain ⟨l1, l2, l3⟩ := (hkids y z).mp hy
              exact idom_unique k1 k3 l3)
            (fun x hx => ((hkids x root).mp hx).2.1 rfl) hab (hreach a ha) (hreach b hb)
          rw [T.anc_iff hb] at key
          rw [a2, a3, b2, b3]
          simp only [Bool.and_eq_true, decide_eq_true_eq, ha, hb, true_and]
          rw [← key]
          omega
      · rw [hno b hb]
        constructor
        · intro h; revert h; split <;> simp_all
        · intro h; exact absurd h.2.1 hb
    · rw [hno a ha]
      simp [ha]

/-! ## CommonDominator -/

theorem collect_spec {E : B → B → Prop} {root : B} {t : Tree B} (A : Answers E root t) :
    ∀ (n : Nat) (b : B) (p : List B), Path E root b p → p.length ≤ n → ∀ seen, (∀ x ∈ seen, ¬ Dominates E root x b) →
    ∀ fuel, n + 1 ≤ fuel → ∃ out, collect t fuel (some b) seen = some out ∧
      ∀ x, x ∈ out ↔ x ∈ seen ∨ Dominates E root x b := by
  intro n
  induction n with
  | zero => intro b p hp hl; cases hp <;> simp at hl
  | succ n ih =>
    intro b p hp hl seen hs fuel hfuel
    obtain ⟨k, rfl⟩ : ∃ k, fuel = k + 1 := ⟨fuel - 1, by omega⟩
    have hb := path_reach_end hp
    rw [collect, if_neg (fun h => hs b h (dom_self _ _ _))]
    by_cases hbr : b = root
    · subst hbr
      have : t.immediateDominator b = none := by
        cases h : t.immediateDominator b with
        | none => rfl
        | some d => exact absurd rfl ((A.idom b d).mp h).2.1
      rw [this]
      obtain ⟨j, rfl⟩ : ∃ j, k = j + 1 := ⟨k - 1, by omega⟩
      refine ⟨_, rfl, ?_⟩
      intro x
      simp only [List.mem_cons]
      constructor
      · rintro (rfl | h)
        · exact Or.inr (dom_self _ _ _)
        · exact Or.inl h
      · rintro (h | h)
        · exact Or.inr h
        · left; have := h _ (.single b); simpa using this
    · obtain ⟨d, hd⟩ := A.idomEx b hb hbr
      obtain ⟨_, _, hid⟩ := (A.idom b d).mp hd
      obtain ⟨q, k1, k2⟩ := path_prefix hp d (hid.2.1 p hp) hid.1
      rw [hd]
      obtain ⟨out, h1, h2⟩ := ih d q k1 (by omega) (b :: seen) (by
        intro x hx
        rcases List.mem_cons.mp hx with rfl | hx
        · intro h; exact hid.1 (dom_antisymm (path_reach_end k1) hid.2.1 h)
        · intro h; exact hs x hx (dom_trans h hid.2.1)) k (by omega)
      refine ⟨out, h1, ?_⟩
      intro x
      rw [h2]
      simp only [List.mem_cons]
      constructor
      · rintro ((rfl | h) | h)
        · exact Or.inr (dom_self _ _ _)
        · exact Or.inl h
        · exact Or.inr (dom_trans h hid.2.1)
      · rintro (h | h)
        · exact Or.inl (Or.inr h)
        · by_cases hx : x = b
          · exact Or.inl (Or.inl hx)
          · exact Or.inr (hid.2.2 x hx h)

theorem climbTo_spec {E : B → B → Prop} {root : B} {t : Tree B} (A : Answers E root t) {seen : List B}
    (hroot : root ∈ seen) :
    ∀ (n : Nat) (b : B) (p : List B), Path E root b p → p.length ≤ n → ∀ fuel, n ≤ fuel →
    ∃ d, climbTo t seen fuel (some b) = some (some d) ∧ d ∈ seen ∧ Dominates E root d b ∧
      ∀ x ∈ seen, Dominates E root x b → Dominates E root x d := by
  intro n
  induction n with
  | zero => intro b p hp hl; cases hp <;> simp at hl
  | succ n ih =>
    intro b p hp hl fuel hfuel
    obtain ⟨k, rfl⟩ : ∃ k, fuel = k + 1 := ⟨fuel - 1, by omega⟩
    have hb := path_reach_end hp
    rw [climbTo]
    by_cases hs : b ∈ seen
    · rw [if_pos hs]
      exact ⟨b, rfl, hs, dom_self _ _ _, fun x _ h => h⟩
    · rw [if_neg hs]
      have hbr : b ≠ root := by rintro rfl; exact hs hroot
      obtain ⟨d, hd⟩ := A.idomEx b hb hbr
      obtain ⟨_, _, hid⟩ := (A.idom b d).mp hd
      obtain ⟨q, k1, k2⟩ := path_prefix hp d (hid.2.1 p hp) hid.1
      rw [hd]
      obtain ⟨c, h1, h2, h3, h4⟩ := ih d q k1 (by omega) k (by omega)
      refine ⟨c, h1, h2, dom_trans h3 hid.2.1, ?_⟩
      intro x hx hxb
      exact h4 x hx (hid.2.2 x (by rintro rfl; exact hs hx) hxb)

theorem common_spec {E : B → B → Prop} {root : B} {t : Tree B} (A : Answers E root t) {b1 b2 : B}
    (h1 : Reach E root b1) (h2 : Reach E root b2) :
    ∃ F, ∀ fuel, F ≤ fuel → ∃ d, t.commonDominator fuel b1 b2 = some (some d) ∧
      Dominates E root d b1 ∧ Dominates E root d b2 ∧
      ∀ x, Dominates E root x b1 → Dominates E root x b2 → Dominates E root x d := by
  obtain ⟨p1, hp1⟩ := reach_path h1
  obtain ⟨p2, hp2⟩ := reach_path h2
  refine ⟨p1.length + p2.length + 1, fun fuel hf => ?_⟩
  obtain ⟨out, c1, c2⟩ := collect_spec A _ b1 p1 hp1 (Nat.le_refl _) [] (by simp) fuel (by omega)
  simp only [List.not_mem_nil, false_or] at c2
  obtain ⟨d, k1, k2, k3, k4⟩ := climbTo_spec A ((c2 root).mpr (root_dom _ _ _)) _ b2 p2 hp2 (Nat.le_refl _) fuel (by omega)
  refine ⟨d, by unfold Tree.commonDominator; rw [c1]; exact k1, (c2 d).mp k2, k3, ?_⟩
  intro x hx1 hx2
  exact k4 x ((c2 x).mpr hx1) hx2

/-- When one of the blocks is not in the tree the answer is null, unless they are equal. -/
theorem common_unreachable {E : B → B → Prop} {root : B} {t : Tree B} (A : Answers E root t) {b1 b2 : B}
    (h : ¬ (Reach E root b1 ∧ Reach E root b2)) (hne : b1 ≠ b2) :
    ∃ F, ∀ fuel, F ≤ fuel → t.commonDominator fuel b1 b2 = some none := by
  have no : ∀ b, ¬ Reach E root b → t.immediateDominator b = none := by
    intro b hb
    cases h : t.immediateDominator b with
    | none => rfl
    | some d => exact absurd ((A.idom b d).mp h).1 hb
  by_cases h1 : Reach E root b1
  · have h2 : ¬ Reach E root b2 := fun h2 => h ⟨h1, h2⟩
    obtain ⟨p1, hp1⟩ := reach_path h1
    refine ⟨p1.length + 2, fun fuel hf => ?_⟩
    obtain ⟨out, c1, c2⟩ := collect_spec A _ b1 p1 hp1 (Nat.le_refl _) [] (by simp) fuel (by omega)
    simp only [List.not_mem_nil, false_or] at c2
    obtain ⟨k, rfl⟩ : ∃ k, fuel = k + 2 := ⟨fuel - 2, by omega⟩
    unfold Tree.commonDominator
    rw [c1]
    have : b2 ∉ out := fun hm => h2 (dom_reach h1 ((c2 b2).mp hm))
    simp only [climbTo, if_neg this, no b2 h2]
  · by_cases h2 : Reach E root b2
    · obtain ⟨p2, hp2⟩ := reach_path h2
      have key : ∀ (n : Nat) (b : B) (p : List B), Path E root b p → p.length ≤ n → ∀ fuel, n + 1 ≤ fuel →
          climbTo t [b1] fuel (some b) = some none := by
        intro n
        induction n with
        | zero => intro b p hp hl; cases hp <;> simp at hl
        | succ n ih =>
          intro b p hp hl fuel hfuel
          obtain ⟨k, rfl⟩ : ∃ k, fuel = k + 1 := ⟨fuel - 1, by omega⟩
          have hb := path_reach_end hp
          have : b ∉ [b1] := by simp; rintro rfl; exact h1 hb
          rw [climbTo, if_neg this]
          by_cases hbr : b = root
          · subst hbr
            have : t.immediateDominator b = none := by
              cases h : t.immediateDominator b with
              | none => rfl
              | some d => exact absurd rfl ((A.idom b d).mp h).2.1
            rw [this]
            obtain ⟨j, rfl⟩ : ∃ j, k = j + 1 := ⟨k - 1, by omega⟩
            rfl
          · obtain ⟨d, hd⟩ := A.idomEx b hb hbr
            obtain ⟨_, _, hid⟩ := (A.idom b d).mp hd
            obtain ⟨q, k1, k2⟩ := path_prefix hp d (hid.2.1 p hp) hid.1
            rw [hd]
            exact ih d q k1 (by omega) k (by omega)
      refine ⟨p2.length + 2, fun fuel hf => ?_⟩
      obtain ⟨k, rfl⟩ : ∃ k, fuel = k + 2 := ⟨fuel - 2, by omega⟩
      unfold Tree.commonDominator
      simp only [collect, List.not_mem_nil, if_false, no b1 h1]
      exact key _ b2 p2 hp2 (Nat.le_refl _) (k + 2) (by omega)
    · refine ⟨2, fun fuel hf => ?_⟩
      obtain ⟨k, rfl⟩ : ∃ k, fuel = k + 2 := ⟨fuel - 2, by omega⟩
      unfold Tree.commonDominator
      have : b2 ∉ [b1] := by simp; exact fun h => hne h.symm
      simp only [collect, List.not_mem_nil, if_false, no b1 h1, climbTo, if_neg this, no b2 h2]

end Verif.DomTree
