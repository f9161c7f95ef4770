import Verif.DomTree.Number
/-!
# The tree built from a list of (block, immediate dominator) pairs, and its numbering
-/
set_option linter.unusedSimpArgs false
set_option linter.unusedVariables false
set_option linter.unusedSectionVars false
namespace Verif.DomTree
open Verif.Cfa Verif.Cfa.Spec
variable {B : Type} [DecidableEq B]

@[simp] theorem insert_roots (t : Tree B) (b) : (t.insert b).roots = t.roots := by
  unfold Tree.insert; split <;> rfl
theorem insert_isSome (t : Tree B) (b x) : ((t.insert b).nodes x).isSome = ((t.nodes x).isSome || decide (x = b)) := by
  unfold Tree.insert
  split
  · rename_i h; by_cases hx : x = b <;> simp [hx, h]
  · by_cases hx : x = b <;> simp [hx]
@[simp] theorem insert_children (t : Tree B) (b x) : (t.insert b).children x = t.children x := by
  unfold Tree.insert Tree.children
  split
  · rfl
  · rename_i h; by_cases hx : x = b <;> simp [hx, h]
theorem idom_bind (t : Tree B) (x) : t.immediateDominator x = (t.nodes x).bind (·.parent) := by
  unfold Tree.immediateDominator; cases t.nodes x <;> rfl
@[simp] theorem insert_idom (t : Tree B) (b x) : (t.insert b).immediateDominator x = t.immediateDominator x := by
  rw [idom_bind, idom_bind]
  unfold Tree.insert
  split
  · rfl
  · rename_i h; by_cases hx : x = b <;> simp [hx, h]

@[simp] theorem modify_roots (t : Tree B) (b g) : (t.modify b g).roots = t.roots := rfl
@[simp] theorem modify_isSome (t : Tree B) (b g x) : ((t.modify b g).nodes x).isSome = (t.nodes x).isSome := by
  simp only [Tree.modify]; split <;> simp
theorem modify_children (t : Tree B) (b g x) : (t.modify b g).children x =
    if x = b then ((t.nodes x).map fun n => (g n).children).getD [] else t.children x := by
  simp only [Tree.modify, Tree.children]
  split
  · cases t.nodes x <;> rfl
  · rfl
theorem modify_idom (t : Tree B) (b g x) : (t.modify b g).immediateDominator x =
    if x = b then (t.nodes x).bind fun n => (g n).parent else t.immediateDominator x := by
  rw [idom_bind, idom_bind]
  simp only [Tree.modify]
  split
  · cases t.nodes x <;> rfl
  · rfl

structure Built (t : Tree B) (es : List (B × B)) (t' : Tree B) : Prop where
  isSome : ∀ x, (t'.nodes x).isSome = true ↔ (t.nodes x).isSome = true ∨ ∃ e ∈ es, e.1 = x ∨ e.2 = x
  children : ∀ x c, c ∈ t'.children x ↔ c ∈ t.children x ∨ ((c, x) ∈ es ∧ c ≠ x)
  idomOld : ∀ x, x ∉ es.map (·.1) → t'.immediateDominator x = t.immediateDominator x
  idomNew : (es.map (·.1)).Nodup → ∀ x d, (x, d) ∈ es → x ≠ d → t'.immediateDominator x = some d
  idomSelf : (es.map (·.1)).Nodup → ∀ x, (x, x) ∈ es → t'.immediateDominator x = t.immediateDominator x
  roots : ∀ r, r ∈ t'.roots ↔ r ∈ t.roots ∨ (r, r) ∈ es
  rootsNodup : t.roots.Nodup → t'.roots.Nodup

theorem addEdges_spec : ∀ (es : List (B × B)) (t : Tree B), Built t es (addEdges es t) := by
  intro es
  induction es with
  | nil =>
    intro t
    exact ⟨by simp [addEdges], by simp [addEdges], fun _ _ => rfl, by simp, by simp, by simp [addEdges], fun h => h⟩
  | cons e es ih =>
    obtain ⟨a, d⟩ := e
    intro t
    unfold addEdges
    dsimp only
    by_cases had : a = d
    · subst had
      rw [if_pos rfl]
      generalize ht2 : (if a ∈ (t.insert a).roots then t.insert a else
        { t.insert a with roots := (t.insert a).roots ++ [a] }) = t2
      have hn : t2.nodes = (t.insert a).nodes := by subst ht2; split <;> rfl
      have hch : ∀ x, t2.children x = t.children x := by
        intro x; rw [← insert_children t a]; unfold Tree.children; rw [hn]
      have hid : ∀ x, t2.immediateDominator x = t.immediateDominator x := by
        intro x; rw [← insert_idom t a]; unfold Tree.immediateDominator; rw [hn]
      have hr : ∀ r, r ∈ t2.roots ↔ r ∈ t.roots ∨ r = a := by
        intro r
        subst ht2
        simp only [insert_roots]
        split
        · rename_i h; simp only [insert_roots]; constructor
          · exact Or.inl
          · rintro (h' | rfl)
            · exact h'
            · exact h
        · simp
      have hrn : t.roots.Nodup → t2.roots.Nodup := by
        intro h
        subst ht2
        simp only [insert_roots]
        split
        · simpa using h
        · rename_i hna
          rw [List.nodup_append]
          exact ⟨h, by simp, by simp; rintro x hx rfl; exact hna hx⟩
      have b := ih t2
      refine ⟨?_, ?_, ?_, ?_, ?_, ?_, fun h => b.rootsNodup (hrn h)⟩
      · intro x
        rw [b.isSome, hn, insert_isSome]
        simp only [Bool.or_eq_true, decide_eq_true_eq, List.mem_cons, exists_eq_or_imp]
        grind
      · intro x c
        rw [b.children, hch]
        simp only [List.mem_cons, Prod.mk.injEq]
        grind
      · intro x hx
        simp only [List.map_cons, List.mem_cons, not_or] at hx
        rw [b.idomOld x hx.2, hid]
      · intro hnd x d hm hne
        simp only [List.map_cons, List.nodup_cons] at hnd
        simp only [List.mem_cons, Prod.mk.injEq] at hm
        rcases hm with ⟨rfl, rfl⟩ | hm
        · exact absurd rfl hne
        · exact b.idomNew hnd.2 x d hm hne
      · intro hnd x hm
        simp only [List.map_cons, List.nodup_cons] at hnd
        simp only [List.mem_cons, Prod.mk.injEq] at hm
        rcases hm with ⟨rfl, -⟩ | hm
        · rw [b.idomOld x hnd.1, hid]
        · rw [b.idomSelf hnd.2 x hm, hid]
      · intro r
        rw [b.roots, hr]
        simp only [List.mem_cons, Prod.mk.injEq]
        grind
    · rw [if_neg had]
      generalize ht2 : ((((t.insert a).insert d).modify a fun n => { n with parent := some d }).modify d
        fun n => { n with children := n.children ++ [a] }) = t2
      have hs : ∀ x, (t2.nodes x).isSome = ((t.nodes x).isSome || decide (x = a) || decide (x = d)) := by
        intro x; subst ht2; simp only [modify_isSome, insert_isSome]
      have hch : ∀ x, t2.children x = if x = d then t.children x ++ [a] else t.children x := by
        intro x; subst ht2
        rw [modify_children]
        have h2 := insert_children t a x
        have h3 := insert_children (t.insert a) d x
        have hsm : (((t.insert a).insert d).nodes x).isSome = _ := insert_isSome _ _ _
        rw [← h2, ← h3]
        by_cases hx : x = d
        · subst hx
          have hxa : x ≠ a := fun h => had h.symm
          simp only [if_true, Tree.modify, if_neg hxa, Tree.children]
          cases hN : ((t.insert a).insert x).nodes x with
          | none => simp [hN] at hsm
          | some n => simp
        · rw [if_neg hx, if_neg hx, modify_children]
          by_cases hxa : x = a
          · rw [if_pos hxa]
            unfold Tree.children
            cases ((t.insert a).insert d).nodes x <;> rfl
          · rw [if_neg hxa]
      have hid : ∀ x, t2.immediateDominator x = if x = a then some d else t.immediateDominator x := by
        intro x; subst ht2
        have h2 := insert_idom t a x
        have h3 := insert_idom (t.insert a) d x
        have hsm : x = a → (((t.insert a).insert d).nodes x).isSome = true := by
          intro h; rw [insert_isSome, insert_isSome]; simp [h]
        rw [modify_idom]
        by_cases hx : x = d
        · subst hx
          have hxa : x ≠ a := fun h => had h.symm
          rw [if_pos rfl, if_neg hxa, ← h2, ← h3, idom_bind]
          simp only [Tree.modify, if_neg hxa]
        · rw [if_neg hx, modify_idom]
          by_cases hxa : x = a
          · rw [if_pos hxa, if_pos hxa]
            cases hN : ((t.insert a).insert d).nodes x with
            | none => have := hsm hxa; simp [hN] at this
            | some n => rfl
          · rw [if_neg hxa, if_neg hxa, h3, h2]
      have hr : t2.roots = t.roots := by subst ht2; simp
      have b := ih t2
      refine ⟨?_, ?_, ?_, ?_, ?_, ?_, fun h => b.rootsNodup (by rw [hr]; exact h)⟩
      · intro x
        rw [b.isSome, hs]
        simp only [Bool.or_eq_true, decide_eq_true_eq, List.mem_cons, exists_eq_or_imp]
        grind
      · intro x c
        rw [b.children, hch]
        simp only [List.mem_cons, Prod.mk.injEq]
        grind
      · intro x hx
        simp only [List.map_cons, List.mem_cons, not_or] at hx
        rw [b.idomOld x hx.2, hid, if_neg hx.1]
      · intro hnd x d' hm hne
        simp only [List.map_cons, List.nodup_cons] at hnd
        simp only [List.mem_cons, Prod.mk.injEq] at hm
        rcases hm with ⟨rfl, rfl⟩ | hm
        · rw [b.idomOld x hnd.1, hid, if_pos rfl]
        · exact b.idomNew hnd.2 x d' hm hne
      · intro hnd x hm
        simp only [List.map_cons, List.nodup_cons] at hnd
        simp only [List.mem_cons, Prod.mk.injEq] at hm
        rcases hm with ⟨rfl, h⟩ | hm
        · exact absurd h had
        · have : x ≠ a := by rintro rfl; exact hnd.1 (List.mem_map.mpr ⟨_, hm, rfl⟩)
          rw [b.idomSelf hnd.2 x hm, hid, if_neg this]
      · intro r
        rw [b.roots, hr]
        simp only [List.mem_cons, Prod.mk.injEq]
        grind

/-! ## numbering -/

/-- `t'` is `t` up to the numbers. -/
structure SameShape (t t' : Tree B) : Prop where
  isSome : ∀ x, (t'.nodes x).isSome = (t.nodes x).isSome
  idom : ∀ x, t'.immediateDominator x = t.immediateDominator x

theorem number_spec : ∀ (es : List (Event B)) (i : Int) (t : Tree B), (calls es).Nodup →
    SameShape t (number es i t).1 ∧ ∀ x n, t.nodes x = some n → ∃ m, (number es i t).1.nodes x = some m ∧
      m.pre = (if .pre x ∈ calls es then i + 1 + (ip es x : Nat) else n.pre) ∧
      m.post = (if .post x ∈ calls es then i + 1 + (iq es x : Nat) else n.post) := by
  intro es
  induction es with
  | nil => intro i t _; exact ⟨⟨fun _ => rfl, fun _ => rfl⟩, fun x n h => ⟨n, h, by simp, by simp⟩⟩
  | cons e es ih =>
    intro i t hnd
    cases e with
    | back a b => exact ih i t hnd
    | pre b =>
      simp only [calls_pre, List.nodup_cons] at hnd
      obtain ⟨h1, h2⟩ := ih (i + 1) (t.modify b fun n => { n with pre := i + 1 }) hnd.2
      refine ⟨⟨fun x => by rw [number, h1.isSome]; simp, fun x => ?_⟩, ?_⟩
      · rw [number, h1.idom, modify_idom]
        split
        · rw [idom_bind]
        · rfl
      · intro x n hx
        by_cases hxb : x = b
        · subst hxb
          obtain ⟨m, k1, k2, k3⟩ := h2 x { n with pre := i + 1 } (by simp [Tree.modify, hx])
          refine ⟨m, k1, ?_, ?_⟩
          · rw [k2, if_neg hnd.1]
            rw [ip_pre]; simp
          · rw [k3, iq_pre]
            simp only [calls_pre, List.mem_cons, reduceCtorEq, false_or]
            split <;> simp; omega
        · obtain ⟨m, k1, k2, k3⟩ := h2 x n (by simp [Tree.modify, hx, hxb])
          refine ⟨m, k1, ?_, ?_⟩
          · rw [k2, ip_pre, if_neg hxb]
            simp only [calls_pre, List.mem_cons, Event.pre.injEq, hxb, false_or]
            split <;> simp; omega
          · rw [k3, iq_pre]
            simp only [calls_pre, List.mem_cons, reduceCtorEq, false_or]
            split <;> simp; omega
    | post b =>
      simp only [calls_post, List.nodup_cons] at hnd
      obtain ⟨h1, h2⟩ := ih (i + 1) (t.modify b fun n => { n with post := i + 1 }) hnd.2
      refine ⟨⟨fun x => by rw [number, h1.isSome]; simp, fun x => ?_⟩, ?_⟩
      · rw [number, h1.idom, modify_idom]
        split
        · rw [idom_bind]
        · rfl
      · intro x n hx
        by_cases hxb : x = b
        · subst hxb
          obtain ⟨m, k1, k2, k3⟩ := h2 x { n with post := i + 1 } (by simp [Tree.modify, hx])
          refine ⟨m, k1, ?_, ?_⟩
          · rw [k2, ip_post]
            simp only [calls_post, List.mem_cons, reduceCtorEq, false_or]
            split <;> simp; omega
          · rw [k3, if_neg hnd.1]
            rw [iq_post]; simp
        · obtain ⟨m, k1, k2, k3⟩ := h2 x n (by simp [Tree.modify, hx, hxb])
          refine ⟨m, k1, ?_, ?_⟩
          · rw [k2, ip_post]
            simp only [calls_post, List.mem_cons, reduceCtorEq, false_or]
            split <;> simp; omega
          · rw [k3, iq_post, if_neg hxb]
            simp only [calls_post, List.mem_cons, Event.post.injEq, hxb, false_or]
            split <;> simp; omega

end Verif.DomTree
