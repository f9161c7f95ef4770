import Verif.VectorDce.Example
set_option linter.unusedVariables false
/-!
# Vector dead code elimination keeps what a function does (C63)

The executions are those of `Verif.SsaExec.Spec`, with the meaning of the vector instructions given in
`Verif.VectorDce.Spec`. An undefined value may be read as anything, each time it is read. The hypotheses
are that the function is in SSA form (`Valid`), well typed (`Typed`) and that instructions depend on the
values of their operands only (`Depends`). `Typed` limits vectors to 16 components: for longer ones
the claim is false (`long_vector_wrong`), which is why the first two theorems are partial.
-/
namespace Verif.VectorDce
open Verif.SsaExec Verif.VectorDce.Spec
variable {I B X M : Type} [DecidableEq I]

/-- Every point an execution of the optimised function comes to, an execution of the original comes to
with the same memory and after the same instructions, and the other way round. -/
theorem behaviour_kept_partial (f : Func I B) (S : Base I B X M) (hT : Typed f) (hD : Depends f S)
    (hv : Valid f.code fun d => S.start d ≠ none) (n : Nat) (Q : Code I B) (hrun : f.run n = some Q) :
    (∀ c', Reach Q (sem f S) c' → ∃ c, Reach f.code (sem f S) c ∧ Match c c') ∧
    (∀ c, Reach f.code (sem f S) c → ∃ c', Reach Q (sem f S) c' ∧ Match c c') := by
  simp only [Func.run, Option.map_eq_some_iff] at hrun
  obtain ⟨live, hl, rfl⟩ := hrun
  have hc := findLive_closed hT hl
  constructor
  · intro c' h
    obtain ⟨c, h1, h2⟩ := sim_bwd hT hD hc hv rewrite_inv h
    exact ⟨c, h1, h2.same⟩
  · intro c h
    obtain ⟨c', h1, h2⟩ := sim_fwd hT hD hc hv rewrite_inv h
    exact ⟨c', h1, h2.same⟩

/-- At matching points, the components the pass takes to be used have the same values, and so has every
value that is not a scalar or a vector. -/
theorem live_components_kept_partial (f : Func I B) (S : Base I B X M) (hT : Typed f) (hD : Depends f S)
    (hv : Valid f.code fun d => S.start d ≠ none) (n : Nat) (live : I → Option Nat) (hl : f.findLive n = some live)
    (c' : Config I B (Nat → X) M) (h : Reach (f.after (f.rewrite live)) (sem f S) c') :
    ∃ c, Reach f.code (sem f S) c ∧ Match c c' ∧ ∀ d x', c'.env d = some x' → ∃ x, c.env d = some x ∧
      (f.shape d = .other → x = x') ∧
      (∀ n k b, f.shape d = .vec n → live d = some b → b.testBit k → x k = x' k) ∧
      (∀ b, f.shape d = .scalar → live d = some b → b.testBit 0 → x 0 = x' 0) := by
  obtain ⟨c, h1, h2⟩ := sim_bwd hT hD (findLive_closed hT hl) hv rewrite_inv h
  refine ⟨c, h1, h2.same, ?_⟩
  intro d x' hx'
  have : ∃ x, c.env d = some x := by
    cases hx : c.env d with
    | none => rw [(h2.none d).mp hx] at hx'; cases hx'
    | some x => exact ⟨x, rfl⟩
  obtain ⟨x, hx⟩ := this
  have key := h2.agree d x x' hx hx'
  refine ⟨x, hx, ?_, ?_, ?_⟩
  · intro hs
    funext k
    exact key k (by simp [L, hs])
  · intro n k b hs hb hk
    exact key k (by simp only [L, hs]; exact ⟨b, hb, hk⟩)
  · intro b hs hb hk
    exact key 0 (by simp only [L, hs]; exact ⟨by trivial, b, hb, hk⟩)

/-- What is deleted has no effects and is not an operand of anything. -/
theorem deleted_unused (f : Func I B) (live : I → Option Nat) (i : I) (hi : i ∈ (f.rewrite live).deleted) :
    f.combinator i = true ∧ ∀ j, .id i ∉ (f.after (f.rewrite live)).ops j ∧
      ∀ b, (.id i, b) ∉ (f.after (f.rewrite live)).args j := by
  obtain ⟨h1, h2⟩ := (rewrite_inv (f := f) (live := live)).deleted i hi
  exact ⟨h1, unused h2⟩

/-- The insertion `%2` is deleted when only the second operand of a shuffle is used. -/
example : (Example.dead.findLive 10).map (fun live => (Example.dead.rewrite live).deleted) = some [2] := by decide

/-- An insertion into a component that is not used, in code that can be reached, is not an operand of
anything afterwards. -/
theorem dead_insert_unused (f : Func I B) (hT : Typed f) (G : I → Prop) (hv : Valid f.code G)
    (live : I → Option Nat) (i : I) (hi : i ∈ f.insts) (hcomb : f.combinator i = true)
    (p : Nat) (idx : List Nat) (hk : f.kind i = .insert (p :: idx)) (b : Nat) (hb : live i = some b)
    (hp : b.testBit p = false) (h : List I) (ht : Trail f.code (i :: h)) (j : I) :
    .id i ∉ (f.after (f.rewrite live)).ops j ∧ ∀ b, (.id i, b) ∉ (f.after (f.rewrite live)).args j := by
  obtain ⟨o, c, ho, -⟩ := hT.insert i _ hk
  exact unused (bypassed_ne (e := c) hT hv ⟨hi, hcomb, _, o, c, b, hk, ho, hb, .inr ⟨p, idx, rfl, rfl, hp⟩⟩ ht) j

/-- The search for used components ends. -/
theorem pass_completes (f : Func I B) (all : List I) (hall : ∀ d, d ∈ all) : ∃ n Q, f.run n = some Q := by
  obtain ⟨n, live, h⟩ := findLive_total (f := f) hall
  exact ⟨n, _, by rw [Func.run, h]; rfl⟩

/-- With vectors of 32 components (allowed by the LongVectorEXT capability) the pass changes what is
stored: an insertion into component 20 is dropped although the whole vector is stored. -/
theorem long_vector_wrong : ∃ (f : Func (Fin 5) Unit) (S : Base (Fin 5) Unit Nat (Nat → Nat)) (n : Nat) (Q : Code (Fin 5) Unit),
    Valid f.code (fun d => S.start d ≠ none) ∧ Depends f S ∧ (∀ d m, f.shape d = .vec m → m = 32) ∧
    f.run n = some Q ∧ ∃ c', Reach Q (sem f S) c' ∧ ∀ c, Reach f.code (sem f S) c → ¬ Match c c' := by
  have hr := Example.long_run
  cases hl : Example.long.findLive 10 with
  | none => rw [hl] at hr; simp at hr
  | some live =>
    rw [hl] at hr
    simp only [Option.map_some, Option.some.injEq, Prod.mk.injEq] at hr
    refine ⟨Example.long, Example.base 3 32, 10, _, Example.long_valid, Example.long_depends, ?_,
      by rw [Func.run, hl]; rfl, ?_⟩
    · apply Example.fin5 <;> simp [Example.long] <;> omega
    · obtain ⟨c', h1, h2⟩ := Example.long_after (Q := Example.long.after (Example.long.rewrite live)) rfl hr.1 hr.2
      refine ⟨c', h1, fun c hc hm => ?_⟩
      have := (Example.long_before hc).1
      rw [hm.2.2.1] at this
      exact this h2

/-- The hypotheses can be met, by a function with a loop in which the pass bypasses an insertion. -/
example : Typed Example.small ∧ Depends Example.small (Example.base 4 1) ∧
    Valid Example.small.code (fun d => (Example.base (n := 6) 4 1).start d ≠ none) ∧
    ∃ live, Example.small.findLive 10 = some live ∧ live 2 = some 1 ∧
      (Example.small.after (Example.small.rewrite live)).ops 3 = [.id 1] := by
  refine ⟨Example.small_typed, Example.small_depends, Example.small_valid, ?_⟩
  have hr := Example.small_run
  cases hl : Example.small.findLive 10 with
  | none => rw [hl] at hr; simp at hr
  | some live =>
    rw [hl] at hr
    simp only [Option.map_some, Option.some.injEq, Prod.mk.injEq] at hr
    exact ⟨live, rfl, hr.2.2, hr.1⟩

example : Trail Example.small.code [2] := .first rfl

end Verif.VectorDce
