import Verif.ControlDep.Exact
set_option linter.unusedSimpArgs false
set_option linter.unusedVariables false
set_option linter.unusedSectionVars false
/-!
# Paths and control dependence
-/
namespace Verif.ControlDep
open Verif.Cfa Verif.Cfa.Spec Verif.DomTree Verif.DomTree.Spec Spec

variable {B : Type} [DecidableEq B]

theorem path_from {E : B → B → Prop} {a b x : B} {p : List B} (h : Path E a b p) (hx : x ∈ p) :
    ∃ q, Path E x b q ∧ q.length ≤ p.length ∧ (x ≠ a → q.length < p.length) ∧ ∀ y ∈ q, y ∈ p := by
  generalize hn : p.length = n
  induction n using Nat.strongRecOn generalizing a p with
  | ind n ih =>
    rcases path_uncons h with ⟨rfl, rfl⟩ | ⟨w, q, hw, rfl, hq⟩
    · simp at hx
      subst hx
      exact ⟨_, h, by omega, fun h => absurd rfl h, fun y hy => hy⟩
    · by_cases hxa : x = a
      · subst hxa
        exact ⟨_, h, by omega, fun h => absurd rfl h, fun y hy => hy⟩
      · have hxq : x ∈ q := by simpa [hxa] using hx
        simp only [List.length_cons] at hn
        obtain ⟨r, h1, h2, h3, h4⟩ := ih q.length (by omega) hq hxq rfl
        exact ⟨r, h1, by omega, fun _ => by omega, fun y hy => by simp [h4 y hy]⟩

theorem canExit_step {f : Func B} {s v : B} (h : Flow f s v) (hv : CanExit f v) : CanExit f s := by
  obtain ⟨x, hx, hr⟩ := hv
  exact ⟨x, hx, Reach.head h hr⟩

theorem canExit_sure {f : Func B} {a v : B} (hv : CanExit f v) (h : PostDominates f a v) :
    CanExit f a := by
  obtain ⟨x, hx, hr⟩ := hv
  obtain ⟨p, hp⟩ := reach_path hr
  obtain ⟨q, hq, -⟩ := path_from hp (h x p hx hp)
  exact ⟨x, hx, path_reach_end hq⟩

/-- A path to `a` on which `a` is certain. -/
theorem sure_path {f : Func B} {a x : B} (hx : Exit f x) : ∀ (n : Nat) {v : B} {p : List B},
    p.length ≤ n → Path (Flow f) v x p → PostDominates f a v →
    ∃ q, Path (Flow f) v a q ∧ ∀ y ∈ q, PostDominates f a y := by
  intro n
  induction n with
  | zero =>
    intro v p hn hp _
    have := path_head hp
    have h0 : p = [] := List.eq_nil_of_length_eq_zero (Nat.le_zero.1 hn)
    rw [h0] at this
    simp at this
  | succ n ih =>
    intro v p hn hp hs
    by_cases hva : v = a
    · subst hva
      exact ⟨[v], .single v, fun y hy => by simp at hy; rw [hy]; exact hs⟩
    · rcases path_uncons hp with ⟨rfl, rfl⟩ | ⟨w, q, hw, rfl, hq⟩
      · have := hs v [v] hx hp
        simp at this
        exact absurd this.symm hva
      · have hsw : PostDominates f a w := by
          intro z r hz hr
          have := hs z _ hz (path_cons hw hr)
          rcases List.mem_cons.1 this with h | h
          · exact absurd h.symm hva
          · exact h
        obtain ⟨r, h1, h2⟩ := ih (by simpa using hn) hq hsw
        refine ⟨v :: r, path_cons hw h1, ?_⟩
        intro y hy
        rcases List.mem_cons.1 hy with rfl | hy
        · exact hs
        · exact h2 y hy

theorem dependent_iff {f : Func B} {a s : B} : Dependent f a s ↔ ∃ v, Decides f s a v := by
  constructor
  · rintro ⟨ho, v, p, he, hc, hp, hs⟩
    exact ⟨v, he, hc, hs v (path_head hp), ho⟩
  · rintro ⟨v, he, hc, hs, ho⟩
    obtain ⟨x, hx, hr⟩ := hc
    obtain ⟨p, hp⟩ := reach_path hr
    obtain ⟨q, h1, h2⟩ := sure_path hx _ (Nat.le_refl _) hp hs
    exact ⟨ho, v, q, he, ⟨x, hx, hr⟩, h1, h2⟩

/-- A path that does not come back to where it starts. -/
theorem path_once {E : B → B → Prop} {s x : B} : ∀ (n : Nat) {p : List B}, p.length ≤ n →
    Path E s x p → ∃ q, Path E s x (s :: q) ∧ s ∉ q := by
  intro n
  induction n with
  | zero =>
    intro p hn hp
    have := path_head hp
    have h0 : p = [] := List.eq_nil_of_length_eq_zero (Nat.le_zero.1 hn)
    rw [h0] at this
    simp at this
  | succ n ih =>
    intro p hn hp
    rcases path_uncons hp with ⟨rfl, rfl⟩ | ⟨w, q, hw, rfl, hq⟩
    · exact ⟨[], hp, by simp⟩
    · by_cases hs : s ∈ q
      · obtain ⟨r, h1, h2, -⟩ := path_from hq hs
        exact ih (by simp at hn; omega) h1
      · exact ⟨q, hp, hs⟩

theorem mem_preds {f : Func B} {s v : B} : s ∈ preds f v ↔ Flow f s v := by
  simp only [preds, List.mem_flatMap, List.mem_map, List.mem_filter, decide_eq_true_eq, Flow]
  constructor
  · rintro ⟨u, hu, w, ⟨h1, h2⟩, rfl⟩
    exact ⟨hu, h2 ▸ h1⟩
  · rintro ⟨h1, h2⟩
    exact ⟨s, h1, v, ⟨h2, rfl⟩, rfl⟩

/-- The post-dominator tree with its shape. -/
theorem pdom_shape [Blocks B] (f : Func B) (ph : B) (hb : f.blocks ≠ []) (wf : WellFormed f ph) :
    ∃ (m : Maps B) (F : Nat), (∀ u v, v ∈ m.succ u ↔ (u = ph ∧ Exit f v) ∨ Flow f v u) ∧
      ∀ fuel, F ≤ fuel → ∃ t, initializeTree fuel f ph true = some t ∧
        Shape (fun u v => v ∈ m.succ u) ph t := by
  obtain ⟨m, hm, hs, hp⟩ : ∃ m, createSuccessorMap f ph true = some m ∧
      (∀ u v, v ∈ m.succ u ↔ (u = ph ∧ Exit f v) ∨ Flow f v u) ∧
      (∀ u v, u ∈ m.pred v ↔ (u = ph ∧ Exit f v) ∨ Flow f v u) := by
    have hbr : ∀ u v, Flow f v u → f.branches v = true := by
      intro u v h
      cases hb : f.branches v with
      | true => rfl
      | false => have := h.2; rw [wf.branch v hb] at this; cases this
    refine ⟨_, by simp only [createSuccessorMap, if_true]; rfl, ?_, ?_⟩
    · intro u v
      have := hbr u v
      rw [(invLoop_spec _ _ _ _).1]
      simp only [List.not_mem_nil, false_or, Flow, Exit] at this ⊢
      grind
    · intro u v
      have := hbr u v
      rw [(invLoop_spec _ _ _ _).2]
      simp only [List.not_mem_nil, false_or, Flow, Exit] at this ⊢
      grind
  obtain ⟨F, hF⟩ := initializeTree_shape f ph true m hb hm (fun u v => by rw [hs, hp])
  exact ⟨m, F, hs, hF⟩

end Verif.ControlDep
