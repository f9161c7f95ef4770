import Verif.Ccp.Example
/-!
# Properties of conditional constant propagation (C62)
-/
set_option linter.unusedSectionVars false
namespace Verif.Ccp
open Propagator Propagator.Spec Ccp.Spec
variable {I B Mem : Type} [DecidableEq I] [DecidableEq B] {f : Func I B} {S : Sem I Mem}
  {fuel : Nat} {r : Bool} {s : State I B (Table I)}

/-- C62, values: whenever, in any execution of the original function, an id has a value, and the pass took
the id to be constant, that constant is the value. Proved for switches of up to 32 bits (`Narrow`);
see `switch64_wrong`. -/
theorem constants_right_partial (va : Valid f) (fs : FoldSound f S) (cv : ConstVals f S) (nar : Narrow f S)
    (h : f.run fuel = .done r s) {c : Config I B Mem} (hc : Reach f S id c) {d k : I} {x : Value}
    (hx : read f S c.env d = some x) (hk : s.val d = some (.const k)) : x = S.constVal k := by
  have fin := run_final va h
  cases hcd : f.const d with
  | none =>
    unfold Spec.read at hx
    rw [hcd] at hx
    exact ((kept_reach va fs cv fin nar hc).env d x hcd hx).2 k hk
  | some y =>
    have hne : f.const d ≠ none := by rw [hcd]; simp
    rw [init_val va fs cv fin hne] at hk
    unfold Spec.read at hx
    rw [hcd] at hx
    cases hx
    split at hk
    · cases hk; rfl
    · cases hk

/-- C62, replacement: what ids are replaced by are declared constants. -/
theorem replaced_by_constants (va : Valid f) (fs : FoldSound f S) (h : f.run fuel = .done r s) {d k : I}
    (hk : s.val d = some (.const k)) : f.const k ≠ none ∧ replace s.val d = k :=
  ⟨((run_final va h).good va fs.consts).consts d k hk, by unfold replace; rw [hk]⟩

/-- C62, code not simulated: no execution reaches a block that the pass took to be unreachable. -/
theorem executed_simulated_partial (va : Valid f) (fs : FoldSound f S) (cv : ConstVals f S) (nar : Narrow f S)
    (h : f.run fuel = .done r s) {c : Config I B Mem} (hc : Reach f S id c) : c.block ∈ s.simulated :=
  (kept_reach va fs cv (run_final va h) nar hc).block

/-- C62, behaviour: the function with the uses replaced has exactly the executions of the original one, with
the same values and effects at every point. -/
theorem behaviour_kept_partial (va : Valid f) (fs : FoldSound f S) (cv : ConstVals f S) (nar : Narrow f S)
    (df : Defined f S) (h : f.run fuel = .done r s) (c : Config I B Mem) :
    Reach f S (replace s.val) c ↔ Reach f S id c :=
  reach_iff va fs cv (run_final va h) nar df c

/-- C62, completion: on a well typed function the pass comes to an end, and no assertion fails on the
way. -/
theorem pass_completes [Cfa.Blocks I] [Cfa.Blocks B] {type : I → Nat} {boolType : Nat} {intType : Nat → Prop}
    (va : Valid f) (fs : FoldSound f S) (fg : FoldGrows f) (ty : Typed f type boolType intType)
    (h : rounds f.toProg ≤ fuel) : ∃ r s, f.run fuel = .done r s := by
  have nb := not_bad va fs.consts fg ty
  have ht := (run_track (p := f.toProg) (visit := f.visit) (v₀ := f.init) fuel).2
  cases hr : Propagator.run f.toProg f.visit f.init fuel with
  | fault => exact absurd hr (run_no_fault va.prog (visit_chooses va) _ _)
  | outOfFuel => exact absurd hr (run_terminates _ _ _ _ h)
  | descended => exact absurd (ht (.inl hr)) nb
  | failed r => exact absurd (ht (.inr ⟨r, hr⟩)) nb
  | done r s => exact ⟨r, s, hr⟩

/-- C62, precision: an instruction that folds once the constants found are put in for its operands is
either constant or was folded to different constants on the way: an unknown entry never remains in a
block that was simulated, if the operands have entries. -/
theorem known_if_operands_known (va : Valid f) (fs : FoldSound f S) (h : f.run fuel = .done r s) {i : I} {b : B}
    (hb : f.block i = some b) (hs : b ∈ s.simulated) (hk : f.kind i = .foldable)
    (hd : ∀ d ∈ f.inDefs i, s.val d ≠ none) : s.val i ≠ none := by
  rcases (run_final va h).fold va fs.consts hb hs hk hd with h | ⟨k, m, h, -⟩ <;> rw [h] <;> simp

/-! ## The hypotheses are met -/
namespace Example

/-- The function with selector 5 is processed, and every execution of either version is one of the
other. -/
example : ∃ r s, (func 5).run 20 = .done r s ∧ s.val 7 = some (.const 9) ∧
    ∀ c, Reach (func 5) (sem 5) (replace s.val) c ↔ Reach (func 5) (sem 5) id c := by
  have h := run5
  cases hr : (func 5).run 20 with
  | done r s =>
    rw [hr] at h
    simp only [result, Option.some.injEq, Prod.mk.injEq] at h
    exact ⟨r, s, rfl, h.2.1, behaviour_kept_partial (valid 5) (foldSound 5) (constVals 5)
      (narrow (by decide)) (defined 5) hr⟩
  | _ => rw [hr] at h; cases h

example : ∃ r s, (func 5).run (rounds (func 5).toProg) = .done r s :=
  pass_completes (valid 5) (foldSound 5) (foldGrows 5) (typed 5) (Nat.le_refl _)

/-- An execution that takes the default case. -/
theorem default_taken {n : Nat} (hn : n ≠ 0) : ∃ c, Reach (func n) (sem n) id c ∧ c.block = 4 ∧
    c.env 6 = some (.int 20) := by
  have r0 : Reach (func n) (sem n) id (initial (func n) (sem n)) := .start
  have r1 : Reach (func n) (sem n) id ⟨2, [4], (initial (func n) (sem n)).env, ()⟩ := by
    refine .step r0 (.switch (i := 3) (rest := []) (sel := 0) (dflt := 2) (cases := [(0, 3)]) (n := n) rfl rfl ?_)
    have ht : target n (2 : Fin 6) [(0, 3)] = 2 := by
      unfold target
      rw [List.find?_singleton, if_neg]
      simpa using fun h => hn h.symm
    rw [ht]
    exact .mk _ (fun i hi => by cases hi) fun i _ => rfl
  refine ⟨⟨4, [7, 8], fun i => if i = 6 then some (.int 20) else (initial (func n) (sem n)).env i, ()⟩, .step r1 ?_, rfl, rfl⟩
  refine .br (t := 4) rfl (.mk _ (fun i hi => ?_) fun i hi => ?_)
  · have : i = 6 := by simpa [func, base] using hi
    subst this
    exact ⟨2, by simp [func, base], rfl, by simp⟩
  · have : i ≠ 6 := by simpa [func, base] using hi
    rw [if_neg this]

end Example

/-- C62, exception: with a selector of 64 bits only the low words are compared (the test meant to exclude
such selectors looks at the width of the selector's id). For the selector 2^32 the case 0 is taken to
be chosen, and a phi that is 20 in the execution is replaced by 10. -/
theorem switch64_wrong : ∃ (f : Func (Fin 10) (Fin 6)) (S : Sem (Fin 10) Unit) (r : Bool)
    (s : State (Fin 10) (Fin 6) (Table (Fin 10))) (c : Config (Fin 10) (Fin 6) Unit),
    Valid f ∧ FoldSound f S ∧ ConstVals f S ∧ Defined f S ∧ f.run 20 = .done r s ∧ Reach f S id c ∧
    c.env 6 = some (.int 20) ∧ s.val 6 = some (.const 1) ∧ S.constVal 1 = .int 10 := by
  have h := Example.run64
  obtain ⟨c, hc, -, h6⟩ := Example.default_taken (n := 2 ^ 32) (by decide)
  cases hr : (Example.func (2 ^ 32)).run 20 with
  | done r s =>
    rw [hr] at h
    simp only [Example.result, Option.some.injEq, Prod.mk.injEq] at h
    exact ⟨_, _, r, s, c, Example.valid _, Example.foldSound _, Example.constVals _, Example.defined _, hr, hc,
      h6, h.1, rfl⟩
  | _ => rw [hr] at h; cases h

end Verif.Ccp
