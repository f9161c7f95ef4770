import Verif.ControlDep.Spec
set_option linter.unusedSimpArgs false
set_option linter.unusedVariables false
set_option linter.unusedSectionVars false
/-!
# The post-dominator tree: children and root
-/
namespace Verif.ControlDep
open Verif.Cfa Verif.Cfa.Spec Verif.DomTree Verif.DomTree.Spec

variable {B : Type} [DecidableEq B]

theorem number_shape : ∀ (es : List (Event B)) (i : Int) (t : Tree B),
    (∀ x, (number es i t).1.children x = t.children x) ∧ (number es i t).1.roots = t.roots := by
  intro es
  induction es with
  | nil => intro i t; exact ⟨fun _ => rfl, rfl⟩
  | cons e es ih =>
    intro i t
    have hm : ∀ (b : B) (g : Node B → Node B), (∀ n, (g n).children = n.children) → ∀ x,
        (t.modify b g).children x = t.children x := by
      intro b g hg x
      rw [modify_children]
      split
      · simp only [hg, Tree.children]
      · rfl
    cases e with
    | pre b =>
      obtain ⟨h1, h2⟩ := ih (i + 1) (t.modify b fun n => { n with pre := i + 1 })
      exact ⟨fun x => (h1 x).trans (hm b (fun n => { n with pre := i + 1 }) (fun _ => rfl) x), h2⟩
    | post b =>
      obtain ⟨h1, h2⟩ := ih (i + 1) (t.modify b fun n => { n with post := i + 1 })
      exact ⟨fun x => (h1 x).trans (hm b (fun n => { n with post := i + 1 }) (fun _ => rfl) x), h2⟩
    | back a b => exact ih i t

theorem reset_shape [Blocks B] (t : Tree B) :
    (∀ x, (resetDFNumbering t).children x = t.children x) ∧ (resetDFNumbering t).roots = t.roots := by
  unfold resetDFNumbering
  have : ∀ (rs : List B) (i : Int) (u : Tree B),
      (∀ x, (resetDFNumbering.go t rs i u).children x = u.children x) ∧
        (resetDFNumbering.go t rs i u).roots = u.roots := by
    intro rs
    induction rs with
    | nil => intro i u; exact ⟨fun _ => rfl, rfl⟩
    | cons r rs ih =>
      intro i u
      rw [resetDFNumbering.go]
      obtain ⟨h1, h2⟩ := number_shape (depthFirst t.children (fun _ => false) r) i u
      obtain ⟨k1, k2⟩ := ih (number (depthFirst t.children (fun _ => false) r) i u).2
        (number (depthFirst t.children (fun _ => false) r) i u).1
      exact ⟨fun x => (k1 x).trans (h1 x), k2.trans h2⟩
  exact this _ _ _

/-- What the traversal needs of the tree. -/
structure Shape (E : B → B → Prop) (root : B) (t : Tree B) : Prop where
  ans : Answers E root t
  roots : t.roots = [root]
  kids : IdomTree E root t.children

theorem initializeTree_shape [Blocks B] (f : Func B) (ph : B) (post : Bool) (m : Maps B)
    (hne : f.blocks ≠ []) (hm : createSuccessorMap f ph post = some m)
    (hinv : ∀ u v, u ∈ m.pred v ↔ v ∈ m.succ u) :
    ∃ F, ∀ fuel, F ≤ fuel → ∃ t, initializeTree fuel f ph post = some t ∧
      Shape (fun u v => v ∈ m.succ u) ph t := by
  obtain ⟨F, hF⟩ := dominators_of_traversal m.succ m.pred hinv ph
  refine ⟨F, fun fuel hf => ?_⟩
  obtain ⟨out, h1, h2, h3⟩ := hF fuel hf
  have hpo := dfs_postorder_exact m.succ (fun _ => false) ph
  have hE : Edge m.succ (fun _ => false) = (fun u v => v ∈ m.succ u) := by funext u v; simp [Edge]
  rw [hE] at hpo
  have hA := tree_answers m.succ ph out (by rw [h2]; exact hpo.1) (by rw [h2]; exact hpo.2.1) h3
  refine ⟨resetDFNumbering (addEdges out {}), ?_, hA, ?_, ?_, ?_⟩
  · unfold initializeTree
    have : f.blocks.isEmpty = false := by cases h : f.blocks <;> simp_all
    rw [this, hm]
    simp [h1]
  · rw [(reset_shape _).2]
    have bt := addEdges_spec out {}
    have k1 : ∀ r, r ∈ (addEdges out {}).roots ↔ r = ph := by
      intro r
      rw [bt.roots, h3]
      simp only [List.not_mem_nil, false_or]
      constructor
      · rintro ⟨_, h | ⟨_, h⟩⟩
        · exact h.1
        · exact absurd rfl h.1
      · rintro rfl
        exact ⟨.refl _, Or.inl ⟨rfl, rfl⟩⟩
    have k2 := bt.rootsNodup (by simp)
    cases hr : (addEdges out {}).roots with
    | nil => have := (k1 ph).mpr rfl; simp [hr] at this
    | cons x xs =>
      rw [hr] at k1 k2
      have hx := (k1 x).mp (by simp)
      subst hx
      cases xs with
      | nil => rfl
      | cons y ys =>
        have hy := (k1 y).mp (by simp)
        simp [hy] at k2
  · intro d b
    rw [(reset_shape _).1, (addEdges_spec out {}).children, h3]
    simp only [Tree.children, Option.map_none, Option.getD_none, List.not_mem_nil, false_or]
    constructor
    · rintro ⟨⟨k1, k2⟩, k3⟩
      rcases k2 with ⟨rfl, rfl⟩ | k2
      · exact absurd rfl k3
      · exact ⟨k1, k2.1, k2.2⟩
    · rintro ⟨h1, h2, h3⟩
      exact ⟨⟨h1, Or.inr ⟨h2, h3⟩⟩, fun h => h3.1 h.symm⟩
  · intro b hb hbr
    obtain ⟨d, hd⟩ := hA.idomEx b hb hbr
    exact ⟨d, ((hA.idom b d).mp hd).2.2⟩

/-! ### Post-order -/

/-- `l` is the post-order of the trees below the nodes `cs`. -/
inductive Posts (kids : B → List B) : List B → List B → Prop
  | nil : Posts kids [] []
  | cons {c cs l1 l2} : Posts kids (kids c) l1 → Posts kids cs l2 →
      Posts kids (c :: cs) (l1 ++ c :: l2)

theorem iter_enter {kids : B → List B} {root c : B} {S : List (B × List B)} {r : List B} {n : Nat}
    (h : postIter kids root n .next ((c, kids c) :: S) = some r) :
    postIter kids root n (.enter c) S = some r := by
  cases n with
  | zero => simp [postIter] at h
  | succ n =>
    cases hk : kids c with
    | nil =>
      rw [hk] at h
      simp only [postIter] at h
      simp only [postIter, hk]
      exact h
    | cons k ks =>
      rw [hk] at h
      simp only [postIter] at h
      simp only [postIter, hk]
      exact h

/-- More steps do not change the result. -/
theorem iter_more {kids : B → List B} {root : B} : ∀ {n : Nat} {a : At B} {S : List (B × List B)}
    {r : List B}, postIter kids root n a S = some r → ∀ k, n ≤ k →
      postIter kids root k a S = some r := by
  intro n
  induction n with
  | zero => intro a S r h; simp [postIter] at h
  | succ n ih =>
    intro a S r h k hk
    obtain ⟨k, rfl⟩ : ∃ k', k = k' + 1 := ⟨k - 1, by omega⟩
    have hk' : n ≤ k := by omega
    cases a with
    | enter c =>
      simp only [postIter] at h ⊢
      split at h
      · exact ih h k hk'
      · exact ih h k hk'
    | visit c =>
      simp only [postIter] at h ⊢
      split
      · rename_i hc
        rw [if_pos hc] at h
        exact h
      · rename_i hc
        rw [if_neg hc] at h
        obtain ⟨l, hl, hr⟩ := Option.map_eq_some_iff.1 h
        rw [ih hl k hk']
        simp [hr]
    | next =>
      match S with
      | [] => simp [postIter] at h
      | (p, []) :: S =>
        simp only [postIter] at h ⊢
        exact ih h k hk'
      | (p, x :: xs) :: S =>
        simp only [postIter] at h ⊢
        exact ih h k hk'

theorem iter_posts {kids : B → List B} {root : B} {cs l : List B} (h : Posts kids cs l) :
    root ∉ l → ∀ (p : B) (S : List (B × List B)) (n : Nat) (r : List B),
      postIter kids root n (.visit p) S = some r →
      ∃ n', postIter kids root n' .next ((p, cs) :: S) = some (l ++ r) := by
  induction h with
  | nil =>
    intro _ p S n r h
    exact ⟨n + 1, by simpa only [postIter, List.nil_append] using h⟩
  | @cons c cs l1 l2 _ _ ih1 ih2 =>
    intro hr p S n r h
    have hc : c ≠ root := by
      intro e
      apply hr
      simp [e]
    obtain ⟨n2, h2⟩ := ih2 (fun hm => hr (by simp [hm])) p S n r h
    have hv : postIter kids root (n2 + 1) (.visit c) ((p, cs) :: S) = some (c :: (l2 ++ r)) := by
      simp only [postIter, if_neg hc, h2, Option.map_some]
    obtain ⟨n1, h1⟩ := ih1 (fun hm => hr (by simp [hm])) c _ _ _ hv
    refine ⟨n1 + 1, ?_⟩
    simp only [postIter]
    rw [iter_enter h1]
    simp

/-- The iterator goes through the post-order of the nodes below the root. -/
theorem iter_root {kids : B → List B} {root : B} {l : List B} (h : Posts kids (kids root) l)
    (hr : root ∉ l) : ∃ N, ∀ n, N ≤ n → postIter kids root n (.enter root) [] = some l := by
  have hv : postIter kids root 1 (.visit root) [] = some [] := by simp [postIter]
  obtain ⟨n, hn⟩ := iter_posts h hr root [] 1 [] hv
  rw [List.append_nil] at hn
  exact ⟨n, fun k hk => iter_more (iter_enter hn) k hk⟩

theorem posts_mem {kids : B → List B} {cs l : List B} (h : Posts kids cs l) :
    (∀ c ∈ cs, c ∈ l) ∧ (∀ x ∈ l, ∀ y ∈ kids x, y ∈ l) ∧
      ∀ x ∈ l, ∃ c ∈ cs, Reach (fun a b => b ∈ kids a) c x := by
  induction h with
  | nil => simp
  | @cons c cs l1 l2 _ _ ih1 ih2 =>
    refine ⟨?_, ?_, ?_⟩
    · intro x hx
      rcases List.mem_cons.1 hx with rfl | hx
      · simp
      · simp [ih2.1 x hx]
    · intro x hx y hy
      rcases List.mem_append.1 hx with hx | hx
      · simp [ih1.2.1 x hx y hy]
      · rcases List.mem_cons.1 hx with rfl | hx
        · simp [ih1.1 y hy]
        · simp [ih2.2.1 x hx y hy]
    · intro x hx
      rcases List.mem_append.1 hx with hx | hx
      · obtain ⟨k, hk, hkx⟩ := ih1.2.2 x hx
        exact ⟨c, by simp, Reach.head hk hkx⟩
      · rcases List.mem_cons.1 hx with rfl | hx
        · exact ⟨x, by simp, .refl _⟩
        · obtain ⟨k, hk, hkx⟩ := ih2.2.2 x hx
          exact ⟨k, by simp [hk], hkx⟩

/-- Children come first. -/
theorem posts_order {kids : B → List B} {cs l : List B} (h : Posts kids cs l) :
    ∀ pre x post, l = pre ++ x :: post → ∀ y ∈ kids x, y ∈ pre := by
  induction h with
  | nil => intro pre x post hl; simp at hl
  | @cons c cs l1 l2 h1 h2 ih1 ih2 =>
    intro pre x post hl y hy
    rcases List.append_eq_append_iff.1 hl with ⟨d, hd1, hd2⟩ | ⟨d, hd1, hd2⟩
    · -- pre = l1 ++ d
      cases d with
      | nil =>
        simp at hd2
        rw [hd1]
        simp
        rw [← hd2.1] at hy
        exact (posts_mem h1).1 y hy
      | cons z zs =>
        simp at hd2
        have := ih2 zs x post hd2.2 y hy
        rw [hd1]
        simp [this]
    · -- l1 = pre ++ d
      cases d with
      | nil =>
        simp at hd2
        simp at hd1
        rw [← hd1]
        rw [hd2.1] at hy
        exact (posts_mem h1).1 y hy
      | cons z zs =>
        simp at hd2
        rw [← hd2.1] at hd1
        exact ih1 pre x zs hd1 y hy

end Verif.ControlDep
