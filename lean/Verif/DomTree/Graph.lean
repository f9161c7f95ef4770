import Verif.DomTree.Core
/-!
# The graphs handed to the dominator computation
-/
set_option linter.unusedSimpArgs false
set_option linter.unusedVariables false
set_option linter.unusedSectionVars false
namespace Verif.DomTree
open Verif.Cfa Verif.Cfa.Spec
variable {B : Type} [DecidableEq B]

/-- An edge of the control flow graph of the function. -/
def Spec.Flow (f : Func B) (u v : B) : Prop := u ∈ f.blocks ∧ v ∈ f.succs u

/-- A block that leaves the function: its last instruction is not a branch. -/
def Spec.Exit (f : Func B) (x : B) : Prop := x ∈ f.blocks ∧ f.branches x = false

/-- From `b` control can reach a block that leaves the function. -/
def Spec.CanExit (f : Func B) (b : B) : Prop := ∃ x, Spec.Exit f x ∧ Reach (Spec.Flow f) b x

/-- `a` post-dominates `b`: every path from `b` to an exit passes through `a`. -/
def Spec.PostDominates (f : Func B) (a b : B) : Prop :=
  ∀ x p, Spec.Exit f x → Path (Spec.Flow f) b x p → a ∈ p

open Spec

theorem mem_push (m : B → List B) (k v u w : B) : w ∈ push m k v u ↔ w ∈ m u ∨ (u = k ∧ w = v) := by
  unfold push; split <;> simp [*]

theorem fwdEdges_spec (bb : B) : ∀ (ss : List B) (m : Maps B),
    (∀ u v, v ∈ (fwdEdges bb ss m).succ u ↔ v ∈ m.succ u ∨ (u = bb ∧ v ∈ ss)) ∧
    (∀ u v, u ∈ (fwdEdges bb ss m).pred v ↔ u ∈ m.pred v ∨ (u = bb ∧ v ∈ ss)) := by
  intro ss
  induction ss with
  | nil => intro m; simp [fwdEdges]
  | cons s ss ih =>
    intro m
    obtain ⟨h1, h2⟩ := ih { succ := push m.succ bb s, pred := push m.pred s bb }
    rw [fwdEdges]
    refine ⟨fun u v => ?_, fun u v => ?_⟩
    · rw [h1, mem_push]; simp only [List.mem_cons]; grind
    · rw [h2, mem_push]; simp only [List.mem_cons]; grind

theorem fwdLoop_spec (succs : B → List B) : ∀ (bs : List B) (m : Maps B),
    (∀ u v, v ∈ (fwdLoop succs bs m).succ u ↔ v ∈ m.succ u ∨ (u ∈ bs ∧ v ∈ succs u)) ∧
    (∀ u v, u ∈ (fwdLoop succs bs m).pred v ↔ u ∈ m.pred v ∨ (u ∈ bs ∧ v ∈ succs u)) := by
  intro bs
  induction bs with
  | nil => intro m; simp [fwdLoop]
  | cons b bs ih =>
    intro m
    obtain ⟨h1, h2⟩ := ih (fwdEdges b (succs b) m)
    obtain ⟨k1, k2⟩ := fwdEdges_spec b (succs b) m
    rw [fwdLoop]
    refine ⟨fun u v => ?_, fun u v => ?_⟩
    · rw [h1, k1]; simp only [List.mem_cons]; grind
    · rw [h2, k2]; simp only [List.mem_cons]; grind

theorem invEdges_spec (bb : B) : ∀ (ss : List B) (m : Maps B),
    (∀ u v, v ∈ (invEdges bb ss m).succ u ↔ v ∈ m.succ u ∨ (v = bb ∧ u ∈ ss)) ∧
    (∀ u v, u ∈ (invEdges bb ss m).pred v ↔ u ∈ m.pred v ∨ (v = bb ∧ u ∈ ss)) := by
  intro ss
  induction ss with
  | nil => intro m; simp [invEdges]
  | cons s ss ih =>
    intro m
    obtain ⟨h1, h2⟩ := ih { succ := push m.succ s bb, pred := push m.pred bb s }
    rw [invEdges]
    refine ⟨fun u v => ?_, fun u v => ?_⟩
    · rw [h1, mem_push]; simp only [List.mem_cons]; grind
    · rw [h2, mem_push]; simp only [List.mem_cons]; grind

theorem invLoop_spec (f : Func B) (ph : B) : ∀ (bs : List B) (m : Maps B),
    (∀ u v, v ∈ (invLoop f ph bs m).succ u ↔ v ∈ m.succ u ∨
      (v ∈ bs ∧ f.branches v = true ∧ u ∈ f.succs v) ∨ (v ∈ bs ∧ f.branches v = false ∧ u = ph)) ∧
    (∀ u v, u ∈ (invLoop f ph bs m).pred v ↔ u ∈ m.pred v ∨
      (v ∈ bs ∧ f.branches v = true ∧ u ∈ f.succs v) ∨ (v ∈ bs ∧ f.branches v = false ∧ u = ph)) := by
  intro bs
  induction bs with
  | nil => intro m; simp [invLoop]
  | cons b bs ih =>
    intro m
    rw [invLoop]
    cases hb : f.branches b with
    | true =>
      simp only [if_true]
      obtain ⟨h1, h2⟩ := ih (invEdges b (f.succs b) m)
      obtain ⟨k1, k2⟩ := invEdges_spec b (f.succs b) m
      refine ⟨fun u v => ?_, fun u v => ?_⟩
      · rw [h1, k1]; simp only [List.mem_cons]; grind
      · rw [h2, k2]; simp only [List.mem_cons]; grind
    | false =>
      simp only [Bool.false_eq_true, if_false]
      obtain ⟨h1, h2⟩ := ih { succ := push m.succ ph b, pred := push m.pred b ph }
      refine ⟨fun u v => ?_, fun u v => ?_⟩
      · rw [h1, mem_push]; simp only [List.mem_cons]; grind
      · rw [h2, mem_push]; simp only [List.mem_cons]; grind

/-- The tree of a function answers dominance in the graph it was built from. -/
theorem initializeTree_answers [Blocks B] (f : Func B) (ph : B) (post : Bool) (m : Maps B)
    (hne : f.blocks ≠ []) (hm : createSuccessorMap f ph post = some m)
    (hinv : ∀ u v, u ∈ m.pred v ↔ v ∈ m.succ u) :
    ∃ F, ∀ fuel, F ≤ fuel → ∃ t, initializeTree fuel f ph post = some t ∧
      Answers (fun u v => v ∈ m.succ u) ph t := by
  obtain ⟨F, hF⟩ := dominators_of_traversal m.succ m.pred hinv ph
  refine ⟨F, fun fuel hf => ?_⟩
  obtain ⟨out, h1, h2, h3⟩ := hF fuel hf
  have hpo := dfs_postorder_exact m.succ (fun _ => false) ph
  have hE : Edge m.succ (fun _ => false) = (fun u v => v ∈ m.succ u) := by funext u v; simp [Edge]
  rw [hE] at hpo
  refine ⟨resetDFNumbering (addEdges out {}), ?_, ?_⟩
  · unfold initializeTree
    have : f.blocks.isEmpty = false := by cases h : f.blocks <;> simp_all
    rw [this, hm]
    simp [h1]
  · exact tree_answers m.succ ph out (by rw [h2]; exact hpo.1) (by rw [h2]; exact hpo.2.1) h3

/-! ## forward graph -/

theorem fwd_path {f : Func B} {ph e : B} {E' : B → B → Prop}
    (hE : ∀ u v, E' u v ↔ (u = ph ∧ v = e) ∨ Flow f u v) (hph : ph ∉ f.blocks) (he : e ≠ ph)
    (hcl : ∀ u v, Flow f u v → v ∈ f.blocks) {b p} :
    Path E' ph b p ↔ (b = ph ∧ p = [ph]) ∨ (∃ q, p = ph :: q ∧ Path (Flow f) e b q) := by
  constructor
  · intro h
    induction h with
    | single => exact Or.inl ⟨rfl, rfl⟩
    | snoc hp hedge ih =>
      right
      rcases (hE _ _).mp hedge with ⟨rfl, rfl⟩ | hfl
      · rcases ih with ⟨_, rfl⟩ | ⟨q, rfl, hq⟩
        · exact ⟨_, rfl, .single _⟩
        · exfalso
          have hx : ∀ {a b q}, Path (Flow f) a b q → b = a ∨ b ∈ f.blocks := by
            intro a b q h
            cases h with
            | single => exact Or.inl rfl
            | snoc _ h => exact Or.inr (hcl _ _ h)
          rcases hx hq with h | h
          · exact he h.symm
          · exact hph h
      · rcases ih with ⟨rfl, rfl⟩ | ⟨q, rfl, hq⟩
        · exact absurd hfl.1 hph
        · exact ⟨_, by simp, .snoc hq hfl⟩
  · rintro (⟨rfl, rfl⟩ | ⟨q, rfl, hq⟩)
    · exact .single _
    · induction hq with
      | single => exact .snoc (.single ph) ((hE _ _).mpr (Or.inl ⟨rfl, rfl⟩))
      | snoc _ h ih => rw [← List.cons_append]; exact .snoc ih ((hE _ _).mpr (Or.inr h))

/-! ## inverted graph -/

theorem path_cons {E : B → B → Prop} {a b c p} (h : E a b) (hp : Path E b c p) : Path E a c (a :: p) := by
  induction hp with
  | single => exact .snoc (.single a) h
  | snoc _ he ih => rw [← List.cons_append]; exact .snoc ih he

theorem path_uncons {E : B → B → Prop} {a c p} (hp : Path E a c p) :
    (a = c ∧ p = [a]) ∨ ∃ b q, E a b ∧ p = a :: q ∧ Path E b c q := by
  induction hp with
  | single => exact Or.inl ⟨rfl, rfl⟩
  | snoc hp he ih =>
    right
    rcases ih with ⟨rfl, rfl⟩ | ⟨b, q, h1, rfl, h3⟩
    · exact ⟨_, _, he, rfl, .single _⟩
    · exact ⟨b, _, h1, by simp, .snoc h3 he⟩

theorem inv_path {f : Func B} {ph : B} {E' : B → B → Prop}
    (hE : ∀ u v, E' u v ↔ (u = ph ∧ Exit f v) ∨ Flow f v u) (hph : ph ∉ f.blocks)
    (hcl : ∀ u v, Flow f u v → v ∈ f.blocks) {b p} :
    Path E' ph b p ↔ (b = ph ∧ p = [ph]) ∨ (∃ x q, p = ph :: q.reverse ∧ Exit f x ∧ Path (Flow f) b x q) := by
  constructor
  · intro h
    induction h with
    | single => exact Or.inl ⟨rfl, rfl⟩
    | snoc hp hedge ih =>
      right
      rcases (hE _ _).mp hedge with ⟨rfl, hx⟩ | hfl
      · rcases ih with ⟨_, rfl⟩ | ⟨x, q, rfl, hx', hq⟩
        · exact ⟨_, _, rfl, hx, .single _⟩
        · exfalso
          rcases path_uncons hq with ⟨rfl, _⟩ | ⟨c, _, h, _⟩
          · exact hph hx'.1
          · exact hph h.1
      · rcases ih with ⟨rfl, rfl⟩ | ⟨x, q, rfl, hx', hq⟩
        · exact absurd (hcl _ _ hfl) hph
        · exact ⟨x, _, by simp, hx', path_cons hfl hq⟩
  · rintro (⟨rfl, rfl⟩ | ⟨x, q, rfl, hx, hq⟩)
    · exact .single _
    · induction q generalizing b with
      | nil => rcases path_uncons hq with ⟨_, h⟩ | ⟨_, _, _, h, _⟩ <;> cases h
      | cons a q ih =>
        rcases path_uncons hq with ⟨rfl, h⟩ | ⟨c, q', h1, h2, h3⟩
        · cases h
          exact .snoc (.single ph) ((hE _ _).mpr (Or.inl ⟨rfl, hx⟩))
        · cases h2
          rw [List.reverse_cons, ← List.cons_append]
          exact .snoc (ih h3) ((hE _ _).mpr (Or.inr h1))

end Verif.DomTree
