import Verif.DomTree.Graph
/-!
# C24: dominator-tree queries

`Flow f` is the control-flow graph of the function, `Path`, `Reach`, `Dominates` and
`IsIdom` are the textbook notions of `Verif.Cfa.Spec`, `Exit`, `CanExit` and
`PostDominates` those of `Verif.DomTree.Spec` (all stated on paths of the function's
own graph, without the pseudo blocks the code adds).
-/
set_option linter.unusedVariables false
namespace Verif.DomTree
open Verif.Cfa Verif.Cfa.Spec Spec
variable {B : Type} [DecidableEq B] [Blocks B]

/-- What the theorems assume of a function: branch targets are blocks of the function,
only branches have targets, and the pseudo block is not one of the function's. -/
structure WellFormed (f : Func B) (ph : B) : Prop where
  pseudo : ph ∉ f.blocks
  closed : ∀ u v, Flow f u v → v ∈ f.blocks
  branch : ∀ u, f.branches u = false → f.succs u = []

/-- The block `d` is the immediate post-dominator of `b`. -/
def Spec.IsIpdom (f : Func B) (d b : B) : Prop :=
  d ≠ b ∧ PostDominates f d b ∧ ∀ x, x ≠ b → PostDominates f x b → PostDominates f x d

/-- **C24, dominators.** For every function with entry block `e`, building the
dominator tree terminates without undefined behaviour and afterwards, for all blocks of
the function: `IsReachable` is reachability from the entry; `Dominates(a, b)` holds
exactly when both are reachable and every path from the entry to `b` passes through
`a`; `StrictlyDominates` also demands `a ≠ b`; `ImmediateDominator` of a reachable
block other than the entry is its immediate dominator, that of the entry is the pseudo
entry block and that of an unreachable block is null. -/
theorem dominator_tree_exact (f : Func B) (ph e : B) (rest : List B) (hb : f.blocks = e :: rest)
    (wf : WellFormed f ph) :
    ∃ F, ∀ fuel, F ≤ fuel → ∃ t, initializeTree fuel f ph false = some t ∧
      (∀ b ∈ f.blocks, t.reachable b = true ↔ Reach (Flow f) e b) ∧
      (∀ a ∈ f.blocks, ∀ b ∈ f.blocks, t.dominates a b = true ↔
        Reach (Flow f) e a ∧ Reach (Flow f) e b ∧ Dominates (Flow f) e a b) ∧
      (∀ a ∈ f.blocks, ∀ b ∈ f.blocks, t.strictlyDominates a b = true ↔
        a ≠ b ∧ Reach (Flow f) e a ∧ Reach (Flow f) e b ∧ Dominates (Flow f) e a b) ∧
      (∀ b ∈ f.blocks, b ≠ e → ∀ d, t.immediateDominator b = some d ↔
        Reach (Flow f) e b ∧ IsIdom (Flow f) e d b) ∧
      (∀ b ∈ f.blocks, b ≠ e → Reach (Flow f) e b → ∃ d ∈ f.blocks, t.immediateDominator b = some d) ∧
      t.immediateDominator e = some ph ∧
      (∀ b ∈ f.blocks, ¬ Reach (Flow f) e b → t.immediateDominator b = none) ∧
      (∀ b1 b2, Reach (Flow f) e b1 → Reach (Flow f) e b2 → ∃ G, ∀ gas, G ≤ gas →
        ∃ d ∈ f.blocks, t.commonDominator gas b1 b2 = some (some d) ∧
          Dominates (Flow f) e d b1 ∧ Dominates (Flow f) e d b2 ∧
          ∀ x, Dominates (Flow f) e x b1 → Dominates (Flow f) e x b2 → Dominates (Flow f) e x d) ∧
      (∀ b1 ∈ f.blocks, ∀ b2 ∈ f.blocks, b1 ≠ b2 → ¬ (Reach (Flow f) e b1 ∧ Reach (Flow f) e b2) →
        ∃ G, ∀ gas, G ≤ gas → t.commonDominator gas b1 b2 = some none) := by
  have he : e ≠ ph := by rintro rfl; exact wf.pseudo (by simp [hb])
  have heb : e ∈ f.blocks := by simp [hb]
  obtain ⟨m, hm, hs, hp⟩ : ∃ m, createSuccessorMap f ph false = some m ∧
      (∀ u v, v ∈ m.succ u ↔ (u = ph ∧ v = e) ∨ Flow f u v) ∧
      (∀ u v, u ∈ m.pred v ↔ (u = ph ∧ v = e) ∨ Flow f u v) := by
    refine ⟨_, by simp only [createSuccessorMap, hb]; rfl, ?_, ?_⟩
    · intro u v
      rw [(fwdLoop_spec _ _ _).1, mem_push]
      simp only [List.not_mem_nil, false_or, Flow, hb]
    · intro u v
      rw [(fwdLoop_spec _ _ _).2, mem_push]
      simp only [List.not_mem_nil, false_or, Flow, hb]
      grind
  obtain ⟨F, hF⟩ := initializeTree_answers f ph false m (by simp [hb]) hm (fun u v => by rw [hs, hp])
  refine ⟨F, fun fuel hfuel => ?_⟩
  obtain ⟨t, h1, A⟩ := hF fuel hfuel
  have path := fun {b p} => fwd_path (f := f) (ph := ph) (e := e) hs wf.pseudo he wf.closed (b := b) (p := p)
  have inB : ∀ b, Reach (Flow f) e b → b ∈ f.blocks := by
    intro b hr
    cases hr with
    | refl => exact heb
    | tail _ h => exact wf.closed _ _ h
  have nph : ∀ b ∈ f.blocks, b ≠ ph := by rintro b hb rfl; exact wf.pseudo hb
  have reach : ∀ b, b ≠ ph → (Reach (fun u v => v ∈ m.succ u) ph b ↔ Reach (Flow f) e b) := by
    intro b hne
    constructor
    · intro h
      obtain ⟨p, hp⟩ := reach_path h
      rcases path.mp hp with ⟨h, _⟩ | ⟨q, _, hq⟩
      · exact absurd h hne
      · exact path_reach_end hq
    · intro h
      obtain ⟨q, hq⟩ := reach_path h
      exact path_reach_end (path.mpr (Or.inr ⟨q, rfl, hq⟩))
  have dom : ∀ a b, a ≠ ph → b ≠ ph → (Dominates (fun u v => v ∈ m.succ u) ph a b ↔ Dominates (Flow f) e a b) := by
    intro a b ha hb'
    constructor
    · intro h q hq
      have := h _ (path.mpr (Or.inr ⟨q, rfl, hq⟩))
      simpa [ha] using this
    · intro h p hp
      rcases path.mp hp with ⟨h, _⟩ | ⟨q, rfl, hq⟩
      · exact absurd h hb'
      · simp [h q hq]
  have notph : ∀ x, x ≠ ph → ¬ Dominates (fun u v => v ∈ m.succ u) ph x ph := by
    intro x hx h
    have := h _ (.single ph)
    simp at this; exact hx this
  have edom : ∀ b, b ≠ ph → Dominates (fun u v => v ∈ m.succ u) ph e b := fun b hb' =>
    (dom e b he hb').mpr (root_dom _ _ _)
  have idom : ∀ b ∈ f.blocks, b ≠ e → Reach (Flow f) e b → ∀ d,
      IsIdom (fun u v => v ∈ m.succ u) ph d b ↔ IsIdom (Flow f) e d b := by
    intro b hbb hbe hrb d
    have hbp := nph b hbb
    constructor
    · rintro ⟨k1, k2, k3⟩
      have hd : d ≠ ph := by
        rintro rfl
        exact notph e he (k3 e (fun h => hbe h.symm) (edom b hbp))
      refine ⟨k1, (dom _ _ hd hbp).mp k2, ?_⟩
      intro x hx hxb
      have hxp : x ≠ ph := by
        rintro rfl
        obtain ⟨q, hq⟩ := reach_path hrb
        exact wf.pseudo (inB _ (path_reach hq x (hxb q hq)))
      exact (dom x d hxp hd).mp (k3 x hx ((dom x b hxp hbp).mpr hxb))
    · rintro ⟨k1, k2, k3⟩
      have hd : d ≠ ph := by
        rintro rfl
        obtain ⟨q, hq⟩ := reach_path hrb
        exact wf.pseudo (inB _ (path_reach hq d (k2 q hq)))
      refine ⟨k1, (dom _ _ hd hbp).mpr k2, ?_⟩
      intro x hx hxb
      by_cases hxp : x = ph
      · subst hxp; exact root_dom _ _ _
      · exact (dom x d hxp hd).mpr (k3 x hx ((dom x b hxp hbp).mp hxb))
  have hdom : ∀ a ∈ f.blocks, ∀ b ∈ f.blocks, t.dominates a b = true ↔
      Reach (Flow f) e a ∧ Reach (Flow f) e b ∧ Dominates (Flow f) e a b := by
    intro a ha b hb'
    rw [A.dominates, reach a (nph a ha), reach b (nph b hb'), dom a b (nph a ha) (nph b hb')]
  have hidom : ∀ b ∈ f.blocks, b ≠ e → ∀ d, t.immediateDominator b = some d ↔
        Reach (Flow f) e b ∧ IsIdom (Flow f) e d b := by
    intro b hb' hbe d
    rw [A.idom, reach b (nph b hb')]
    constructor
    · rintro ⟨k1, _, k3⟩; exact ⟨k1, (idom b hb' hbe k1 d).mp k3⟩
    · rintro ⟨k1, k3⟩; exact ⟨k1, nph b hb', (idom b hb' hbe k1 d).mpr k3⟩
  refine ⟨t, h1, ?_, hdom, ?_, hidom, ?_, ?_, ?_, ?_, ?_⟩
  · intro b hb'
    rw [A.reachable, reach b (nph b hb')]
  · intro a ha b hb'
    unfold Tree.strictlyDominates
    by_cases hab : a = b
    · simp [hab]
    · rw [if_neg hab, hdom a ha b hb']; simp [hab]
  · intro b hb' hbe hr
    obtain ⟨d, hd⟩ := A.idomEx b ((reach b (nph b hb')).mpr hr) (nph b hb')
    refine ⟨d, ?_, hd⟩
    have := ((hidom b hb' hbe d).mp hd).2.2.1
    obtain ⟨q, hq⟩ := reach_path hr
    exact inB _ (path_reach hq d (this q hq))
  · rw [A.idom]
    refine ⟨(reach e he).mpr (.refl _), he, fun h => he h.symm, root_dom _ _ _, ?_⟩
    intro x hx hxe
    by_cases hxp : x = ph
    · subst hxp; exact dom_self _ _ _
    · exfalso
      have := (dom x e hxp he).mp hxe _ (.single e)
      simp at this; exact hx this
  · intro b hb' hr
    cases h : t.immediateDominator b with
    | none => rfl
    | some d => exact absurd ((reach b (nph b hb')).mp ((A.idom b d).mp h).1) hr
  · intro b1 b2 r1 r2
    have n1 := nph b1 (inB _ r1)
    have n2 := nph b2 (inB _ r2)
    obtain ⟨G, hG⟩ := common_spec A ((reach b1 n1).mpr r1) ((reach b2 n2).mpr r2)
    refine ⟨G, fun gas hgas => ?_⟩
    obtain ⟨d, k1, k2, k3, k4⟩ := hG gas hgas
    have hd : d ≠ ph := by
      rintro rfl
      exact notph e he (k4 e (edom b1 n1) (edom b2 n2))
    have k2' := (dom d b1 hd n1).mp k2
    obtain ⟨q, hq⟩ := reach_path r1
    refine ⟨d, inB _ (path_reach hq d (k2' q hq)), k1, k2', (dom d b2 hd n2).mp k3, ?_⟩
    intro x hx1 hx2
    have hxp : x ≠ ph := by
      rintro rfl
      exact wf.pseudo (inB _ (path_reach hq x (hx1 q hq)))
    exact (dom x d hxp hd).mp (k4 x ((dom x b1 hxp n1).mpr hx1) ((dom x b2 hxp n2).mpr hx2))
  · intro b1 hb1 b2 hb2 hne hr
    exact common_unreachable A (by rw [reach b1 (nph b1 hb1), reach b2 (nph b2 hb2)]; exact hr) hne

/-- **C24, post-dominators.** The same for the post-dominator tree: `Dominates(a, b)`
holds exactly when an exit of the function can be reached from both blocks and every
path from `b` to an exit passes through `a`. The immediate post-dominator is the
textbook one when it exists and the pseudo exit block otherwise; likewise for the
common post-dominator. -/
theorem postdominator_tree_exact (f : Func B) (ph : B) (hb : f.blocks ≠ []) (wf : WellFormed f ph) :
    ∃ F, ∀ fuel, F ≤ fuel → ∃ t, initializeTree fuel f ph true = some t ∧
      (∀ b ∈ f.blocks, t.reachable b = true ↔ CanExit f b) ∧
      (∀ a ∈ f.blocks, ∀ b ∈ f.blocks, t.dominates a b = true ↔
        CanExit f a ∧ CanExit f b ∧ PostDominates f a b) ∧
      (∀ a ∈ f.blocks, ∀ b ∈ f.blocks, t.strictlyDominates a b = true ↔
        a ≠ b ∧ CanExit f a ∧ CanExit f b ∧ PostDominates f a b) ∧
      (∀ b ∈ f.blocks, ∀ d ∈ f.blocks, t.immediateDominator b = some d ↔ CanExit f b ∧ IsIpdom f d b) ∧
      (∀ b ∈ f.blocks, t.immediateDominator b = some ph ↔
        CanExit f b ∧ ∀ x, PostDominates f x b → x = b) ∧
      (∀ b ∈ f.blocks, ∀ d, t.immediateDominator b = some d → d = ph ∨ d ∈ f.blocks) ∧
      (∀ b ∈ f.blocks, t.immediateDominator b = none ↔ ¬ CanExit f b) ∧
      (∀ b1 ∈ f.blocks, ∀ b2 ∈ f.blocks, CanExit f b1 → CanExit f b2 → ∃ G, ∀ gas, G ≤ gas →
        ∃ d, t.commonDominator gas b1 b2 = some (some d) ∧
          ((d ∈ f.blocks ∧ PostDominates f d b1 ∧ PostDominates f d b2 ∧
            ∀ x, PostDominates f x b1 → PostDominates f x b2 → PostDominates f x d) ∨
           (d = ph ∧ ∀ x, PostDominates f x b1 → ¬ PostDominates f x b2))) ∧
      (∀ b1 ∈ f.blocks, ∀ b2 ∈ f.blocks, b1 ≠ b2 → ¬ (CanExit f b1 ∧ CanExit f b2) →
        ∃ G, ∀ gas, G ≤ gas → t.commonDominator gas b1 b2 = some none) := by
  obtain ⟨m, hm, hs, hp⟩ : ∃ m, createSuccessorMap f ph true = some m ∧
      (∀ u v, v ∈ m.succ u ↔ (u = ph ∧ Exit f v) ∨ Flow f v u) ∧
      (∀ u v, u ∈ m.pred v ↔ (u = ph ∧ Exit f v) ∨ Flow f v u) := by
    have hbr : ∀ u v, Flow f v u → f.branches v = true := by
      intro u v h
      cases hb : f.branches v with
      | true => rfl
      | false => have := h.2; rw [wf.branch v hb] at this; cases this
    refine ⟨_, by simp only [createSuccessorMap, if_true]; rfl, ?_, ?_⟩
    · intro u v
      have := hbr u v
      rw [(invLoop_spec _ _ _ _).1]
      simp only [List.not_mem_nil, false_or, Flow, Exit] at this ⊢
      grind
    · intro u v
      have := hbr u v
      rw [(invLoop_spec _ _ _ _).2]
      simp only [List.not_mem_nil, false_or, Flow, Exit] at this ⊢
      grind
  obtain ⟨F, hF⟩ := initializeTree_answers f ph true m hb hm (fun u v => by rw [hs, hp])
  refine ⟨F, fun fuel hfuel => ?_⟩
  obtain ⟨t, h1, A⟩ := hF fuel hfuel
  have path := fun {b p} => inv_path (f := f) (ph := ph) hs wf.pseudo wf.closed (b := b) (p := p)
  have nph : ∀ b ∈ f.blocks, b ≠ ph := by rintro b hb rfl; exact wf.pseudo hb
  have inB : ∀ b x q, Exit f x → Path (Flow f) b x q → ∀ y ∈ q, y ∈ f.blocks := by
    intro b x q hx hq
    induction q generalizing b with
    | nil => intro y hy; cases hy
    | cons c q ih =>
      rcases path_uncons hq with ⟨rfl, h⟩ | ⟨d, q', k1, k2, k3⟩
      · cases h; intro y hy; simp at hy; subst hy; exact hx.1
      · cases k2
        intro y hy
        rcases List.mem_cons.mp hy with rfl | hy
        · exact k1.1
        · exact ih d k3 y hy
  have reach : ∀ b, b ≠ ph → (Reach (fun u v => v ∈ m.succ u) ph b ↔ CanExit f b) := by
    intro b hne
    constructor
    · intro h
      obtain ⟨p, hp⟩ := reach_path h
      rcases path.mp hp with ⟨h, _⟩ | ⟨x, q, _, hx, hq⟩
      · exact absurd h hne
      · exact ⟨x, hx, path_reach_end hq⟩
    · rintro ⟨x, hx, h⟩
      obtain ⟨q, hq⟩ := reach_path h
      exact path_reach_end (path.mpr (Or.inr ⟨x, q, rfl, hx, hq⟩))
  have dom : ∀ a b, a ≠ ph → b ≠ ph → (Dominates (fun u v => v ∈ m.succ u) ph a b ↔ PostDominates f a b) := by
    intro a b ha hb'
    constructor
    · intro h x q hx hq
      have := h _ (path.mpr (Or.inr ⟨x, q, rfl, hx, hq⟩))
      simpa [ha] using this
    · intro h p hp
      rcases path.mp hp with ⟨h, _⟩ | ⟨x, q, rfl, hx, hq⟩
      · exact absurd h hb'
      · simp [h x q hx hq]
  have notph : ∀ x, x ≠ ph → ¬ Dominates (fun u v => v ∈ m.succ u) ph x ph := by
    intro x hx h
    have := h _ (.single ph)
    simp at this; exact hx this
  have pdB : ∀ x b, CanExit f b → PostDominates f x b → x ∈ f.blocks := by
    rintro x b ⟨z, hz, hr⟩ h
    obtain ⟨q, hq⟩ := reach_path hr
    exact inB b z q hz hq x (h z q hz hq)
  have hself : ∀ b, PostDominates f b b := by
    intro b x q hx hq
    exact path_head hq
  have hdom : ∀ a ∈ f.blocks, ∀ b ∈ f.blocks, t.dominates a b = true ↔
      CanExit f a ∧ CanExit f b ∧ PostDominates f a b := by
    intro a ha b hb'
    rw [A.dominates, reach a (nph a ha), reach b (nph b hb'), dom a b (nph a ha) (nph b hb')]
  have hsomeB : ∀ b ∈ f.blocks, ∀ d, t.immediateDominator b = some d → d = ph ∨ d ∈ f.blocks := by
    intro b hb' d hd
    obtain ⟨k1, k2, k3⟩ := (A.idom b d).mp hd
    by_cases h : d = ph
    · exact Or.inl h
    · exact Or.inr (pdB d b ((reach b (nph b hb')).mp k1) ((dom d b h (nph b hb')).mp k3.2.1))
  refine ⟨t, h1, ?_, hdom, ?_, ?_, ?_, hsomeB, ?_, ?_, ?_⟩
  · intro b hb'
    rw [A.reachable, reach b (nph b hb')]
  · intro a ha b hb'
    unfold Tree.strictlyDominates
    by_cases hab : a = b
    · simp [hab]
    · rw [if_neg hab, hdom a ha b hb']; simp [hab]
  · intro b hb' d hd'
    have hbp := nph b hb'
    have hd := nph d hd'
    rw [A.idom, reach b hbp]
    constructor
    · rintro ⟨k0, _, k1, k2, k3⟩
      refine ⟨k0, k1, (dom d b hd hbp).mp k2, ?_⟩
      intro x hx hxb
      have hxp := nph x (pdB x b k0 hxb)
      exact (dom x d hxp hd).mp (k3 x hx ((dom x b hxp hbp).mpr hxb))
    · rintro ⟨k0, k1, k2, k3⟩
      refine ⟨k0, hbp, k1, (dom d b hd hbp).mpr k2, ?_⟩
      intro x hx hxb
      by_cases hxp : x = ph
      · subst hxp; exact root_dom _ _ _
      · exact (dom x d hxp hd).mpr (k3 x hx ((dom x b hxp hbp).mp hxb))
  · intro b hb'
    have hbp := nph b hb'
    rw [A.idom, reach b hbp]
    constructor
    · rintro ⟨k0, _, k1, k2, k3⟩
      refine ⟨k0, fun x hxb => ?_⟩
      have hxp := nph x (pdB x b k0 hxb)
      by_cases hx : x = b
      · exact hx
      · exact absurd (k3 x hx ((dom x b hxp hbp).mpr hxb)) (notph x hxp)
    · rintro ⟨k0, k1⟩
      refine ⟨k0, hbp, fun h => hbp h.symm, root_dom _ _ _, ?_⟩
      intro x hx hxb
      by_cases hxp : x = ph
      · subst hxp; exact root_dom _ _ _
      · exact absurd (k1 x ((dom x b hxp hbp).mp hxb)) hx
  · intro b hb'
    constructor
    · intro h hr
      obtain ⟨d, hd⟩ := A.idomEx b ((reach b (nph b hb')).mpr hr) (nph b hb')
      rw [h] at hd; cases hd
    · intro hr
      cases h : t.immediateDominator b with
      | none => rfl
      | some d => exact absurd ((reach b (nph b hb')).mp ((A.idom b d).mp h).1) hr
  · intro b1 hb1 b2 hb2 r1 r2
    have n1 := nph b1 hb1
    have n2 := nph b2 hb2
    obtain ⟨G, hG⟩ := common_spec A ((reach b1 n1).mpr r1) ((reach b2 n2).mpr r2)
    refine ⟨G, fun gas hgas => ?_⟩
    obtain ⟨d, k1, k2, k3, k4⟩ := hG gas hgas
    refine ⟨d, k1, ?_⟩
    by_cases hd : d = ph
    · right
      refine ⟨hd, fun x hx1 hx2 => ?_⟩
      have hxp := nph x (pdB x b1 r1 hx1)
      have := k4 x ((dom x b1 hxp n1).mpr hx1) ((dom x b2 hxp n2).mpr hx2)
      rw [hd] at this
      exact notph x hxp this
    · left
      have k2' := (dom d b1 hd n1).mp k2
      refine ⟨pdB d b1 r1 k2', k2', (dom d b2 hd n2).mp k3, ?_⟩
      intro x hx1 hx2
      have hxp := nph x (pdB x b1 r1 hx1)
      exact (dom x d hxp hd).mp (k4 x ((dom x b1 hxp n1).mpr hx1) ((dom x b2 hxp n2).mpr hx2))
  · intro b1 hb1 b2 hb2 hne hr
    exact common_unreachable A (by rw [reach b1 (nph b1 hb1), reach b2 (nph b2 hb2)]; exact hr) hne

/-- A function without blocks gives an empty tree: every query answers no. -/
theorem empty_function (fuel : Nat) (f : Func B) (ph : B) (post : Bool) (h : f.blocks = []) :
    ∃ t, initializeTree fuel f ph post = some t ∧ (∀ a b, t.dominates a b = false) ∧
      (∀ a, t.reachable a = false) ∧ ∀ a, t.immediateDominator a = none := by
  refine ⟨{}, by simp [initializeTree, h], ?_, ?_, ?_⟩ <;> intros <;> rfl

/-! ## instructions -/

/-- Position of an instruction in its block: the label first, then the list. -/
def Spec.rank : Pos B → Nat
  | .label _ => 0
  | .inst _ i => i + 1

/-- The instruction exists. -/
def Spec.InBlock (size : B → Nat) : Pos B → Prop
  | .label _ => True
  | .inst b i => i < size b

theorem walk_iff (other : Pos B) (b : B) : ∀ k i,
    walk other b k i = true ↔ ∃ j, i < j ∧ j ≤ i + k ∧ other = .inst b j := by
  intro k
  induction k with
  | zero => intro i; simp only [walk, Bool.false_eq_true, false_iff]; rintro ⟨j, h1, h2, _⟩; omega
  | succ k ih =>
    intro i
    rw [walk]
    split
    · rename_i h; simp only [true_iff]; exact ⟨i + 1, by omega, by omega, h.symm⟩
    · rename_i h
      rw [ih]
      constructor
      · rintro ⟨j, h1, h2, h3⟩; exact ⟨j, by omega, by omega, h3⟩
      · rintro ⟨j, h1, h2, h3⟩
        refine ⟨j, ?_, by omega, h3⟩
        by_cases hj : j = i + 1
        · subst hj; exact absurd h3.symm h
        · omega

/-- **C24, instructions.** `Dominates` on two instructions: in different blocks it is
the answer for the blocks; in the same block it holds exactly when the first comes no
later than the second (for post-dominance: no earlier), the label counting as first. -/
theorem dominatesInst_iff (t : Tree B) (post : Bool) (size : B → Nat) (a b : Pos B)
    (ha : InBlock size a) (hb : InBlock size b) :
    dominatesInst t post size a b = true ↔
      (a.block ≠ b.block ∧ t.dominates a.block b.block = true) ∨
      (a.block = b.block ∧ if post then rank b ≤ rank a else rank a ≤ rank b) := by
  unfold dominatesInst
  by_cases hab : a = b
  · subst hab; simp
  · rw [if_neg hab]
    by_cases hbl : a.block = b.block
    · rw [if_neg (by simpa using hbl)]
      simp only [hbl, ne_eq, not_true_eq_false, false_and, true_and, false_or]
      have key : ∀ x y : Pos B, x ≠ y → x.block = y.block → InBlock size x → InBlock size y →
          ((match x with
            | .label _ => true
            | .inst c i => walk y c (size c - 1 - i) i) = true ↔ rank x ≤ rank y) := by
        intro x y hxy hbl hx hy
        cases x with
        | label c => simp [rank]
        | inst c i =>
          simp only
          rw [walk_iff]
          cases y with
          | label d => simp [rank]
          | inst d j =>
            simp only [Pos.block] at hbl
            subst hbl
            simp only [InBlock] at hx hy
            have : i ≠ j := by rintro rfl; exact hxy rfl
            simp only [rank, Pos.inst.injEq, true_and]
            constructor
            · rintro ⟨k, h1, h2, rfl⟩; omega
            · intro h; exact ⟨j, by omega, by omega, rfl⟩
      cases post with
      | false =>
        simp only [Bool.false_eq_true, if_false]
        exact key a b hab hbl ha hb
      | true =>
        simp only [if_true]
        exact key b a (fun h => hab h.symm) hbl.symm hb ha
    · rw [if_pos (by simpa using hbl)]
      simp [hbl]

/-! ## the hypotheses are met -/

/-- A loop with a conditional inside (entry 0, header 1, branches 2 and 3, latch 4, exit
5) and an unreachable block 6; block 7 is the pseudo block. -/
def sample : Func (Fin 8) where
  blocks := [0, 1, 2, 3, 4, 5, 6]
  branches := fun b => decide (b ≠ 5)
  succs := fun | 0 => [1] | 1 => [2, 3] | 2 => [4] | 3 => [4] | 4 => [1, 5] | 6 => [5] | _ => []

example : WellFormed sample 7 :=
  ⟨by decide, by simp only [Flow]; decide, by decide⟩

/-- In the sample the header 1 dominates the exit 5 but the branch 2 does not. -/
example : ∃ F, ∀ fuel, F ≤ fuel → ∃ t, initializeTree fuel sample 7 false = some t ∧
    t.dominates 1 5 = true ∧ t.dominates 2 5 = false := by
  obtain ⟨F, hF⟩ := dominator_tree_exact sample 7 0 [1, 2, 3, 4, 5, 6] rfl
    ⟨by decide, by simp only [Flow]; decide, by decide⟩
  refine ⟨F, fun fuel hf => ?_⟩
  obtain ⟨t, h1, _, h3, _⟩ := hF fuel hf
  have e : ∀ u v : Fin 8, u ∈ sample.blocks → v ∈ sample.succs u → Flow sample u v := fun _ _ a b => ⟨a, b⟩
  have r1 : Reach (Flow sample) 0 1 := .tail (.refl _) (e _ _ (by decide) (by decide))
  have r2 : Reach (Flow sample) 0 2 := .tail r1 (e _ _ (by decide) (by decide))
  have p5 : Path (Flow sample) 0 5 [0, 1, 3, 4, 5] :=
    .snoc (p := [0, 1, 3, 4]) (.snoc (p := [0, 1, 3]) (.snoc (p := [0, 1]) (.snoc (p := [0]) (.single 0)
      (e _ _ (by decide) (by decide))) (e _ 3 (by decide) (by decide))) (e _ 4 (by decide) (by decide)))
      (e _ _ (by decide) (by decide))
  refine ⟨t, h1, ?_, ?_⟩
  · rw [h3 1 (by decide) 5 (by decide)]
    refine ⟨r1, path_reach_end p5, ?_⟩
    intro p hp
    have h0 := path_head hp
    rcases path_uncons hp with ⟨h, _⟩ | ⟨b, q, hb, rfl, hq⟩
    · exact absurd h (by decide)
    · have : b = 1 := by have := hb.2; revert this; simp [sample]
      subst this
      exact List.mem_cons_of_mem _ (path_head hq)
  · rw [Bool.eq_false_iff]
    intro h
    have := ((h3 2 (by decide) 5 (by decide)).mp h).2.2 _ p5
    revert this; decide

end Verif.DomTree
