import Verif.SingleStore.Example
set_option linter.unusedVariables false
/-!
# Local single store elimination keeps what a function does (C65)

The executions are those of `Verif.SsaExec.Spec`, with the meaning of variables, pointers, loads and
stores given in `Verif.SingleStore.Spec`. The hypotheses: the function is in SSA form (`Valid`) and has the
shape of a function of a valid module (`WellFormed`); the dominator analysis is right (`DomSound`);
variables start with the contents of their initializers (`Initial`); the pointer to a variable gives access
to the whole of it (`Pointers`); addressing is logical (`Addressing`). For the relaxed logical addressing
that the optimizer allows for HLSL the claim is false (`stored_address_wrong`), which is why the first two
theorems are partial.
-/
namespace Verif.SingleStore
open Verif.SsaExec Verif.SingleStore.Spec
variable {I B V R : Type} [DecidableEq I]

/-- Every point an execution of the original function comes to is matched by one of the result, and the
other way round: in the same block, after the same instructions, with the same values and the same memory. -/
theorem behaviour_kept_partial (f : Func I B) (n : Nat) (S : Base I B V R) (clean : V → Prop) (cleanRest : R → Prop)
    (hw : WellFormed f n) (hv : Valid f.code fun d => S.start d ≠ none) (hD : DomSound f) (hI : Initial f S)
    (hP : Pointers S) (hA : Addressing f S clean cleanRest) :
    (∀ c, Reach f.code (sem f S) c → ∃ c', Reach (f.after n) (sem f S) c' ∧ Match (f.removed n) c c') ∧
    (∀ c', Reach (f.after n) (sem f S) c' → ∃ c, Reach f.code (sem f S) c ∧ Match (f.removed n) c c') := by
  have hR := replace hw hv hD hP hA hI
  rw [← after_eq hw hv]
  constructor
  · intro c h
    obtain ⟨c', h1, h2, h3, h4, h5, h6⟩ := sim_fwd hR h
    exact ⟨c', h1, h2, h3, h4, h5, h6⟩
  · intro c' h
    obtain ⟨c, h1, h2, h3, h4, h5, h6⟩ := sim_bwd hR h
    exact ⟨c, h1, h2, h3, h4, h5, h6⟩

/-- The result is in SSA form; so nothing that was removed is used in code that can be reached. -/
theorem result_valid_partial (f : Func I B) (n : Nat) (S : Base I B V R) (clean : V → Prop) (cleanRest : R → Prop)
    (hw : WellFormed f n) (hv : Valid f.code fun d => S.start d ≠ none) (hD : DomSound f) (hI : Initial f S)
    (hP : Pointers S) (hA : Addressing f S clean cleanRest) : Valid (f.after n) fun d => S.start d ≠ none := by
  rw [← after_eq hw hv]
  exact replaced_valid (replace hw hv hD hP hA hI)

/-- A function with a store through a copy, an initializer and a loop, to which both apply. -/
example : (∀ c, Reach Example.good.code (sem Example.good Example.goodBase) c →
    ∃ c', Reach (Example.good.after 5) (sem Example.good Example.goodBase) c' ∧ Match (Example.good.removed 5) c c') :=
  (behaviour_kept_partial Example.good 5 Example.goodBase _ _ Example.good_wellFormed Example.good_valid Example.good_domSound
    Example.good_initial Example.good_pointers Example.good_addressing).1

example : Valid (Example.good.after 5) fun d => Example.goodBase.start d ≠ none :=
  result_valid_partial Example.good 5 Example.goodBase _ _ Example.good_wellFormed Example.good_valid Example.good_domSound
    Example.good_initial Example.good_pointers Example.good_addressing

example : (Example.good.after 5).body true = [6, 10, 11] ∧ (Example.good.after 5).ops 6 = [.id 9] ∧
    (Example.good.after 5).ops 10 = [.id 8] := by decide

/-- What is removed are loads of the whole of a variable that has a single store or only an initializer. -/
theorem only_loads_removed (f : Func I B) (n : Nat) (S : Base I B V R)
    (hw : WellFormed f n) (hv : Valid f.code fun d => S.start d ≠ none) (hI : Initial f S)
    (hs : ∀ i ∈ f.insts, f.kind i = .store → ∀ p w, f.ops i = [p, w] → ∀ k v, ¬ Direct f k w v)
    (i : I) (h : f.removed n i = true) :
    f.kind i = .load ∧ ∃ v st e k p, Single f v st e ∧ f.ops i = [p] ∧ CopyOf f k p v ∧ f.dom st i = true := by
  obtain ⟨e, v, st, p, k, h1, h2, h3, h4, h5⟩ := ((sinv_run hw hv hI hs).dead i (by simpa [Func.removed] using h)).1
  exact ⟨h2, v, st, e, k, p, h1, h3, h4, h5⟩

example : Example.good.removed 5 5 = true ∧ Example.good.removed 5 7 = true ∧ Example.good.removed 5 3 = false := by decide

/-- All loads of the whole of such a variable that come after the store are removed, if its address is an operand of
nothing unexpected. -/
theorem dominated_loads_removed (f : Func I B) (n : Nat) (S : Base I B V R)
    (hw : WellFormed f n) (hv : Valid f.code fun d => S.start d ≠ none) (hI : Initial f S)
    (hs : ∀ i ∈ f.insts, f.kind i = .store → ∀ p w, f.ops i = [p, w] → ∀ k v, ¬ Direct f k w v)
    (v st e d p : I) (k : Nat) (hv' : v ∈ f.variables) (h : Single f v st e) (hp : Plain f v)
    (hk : f.kind d = .load) (ho : f.ops d = [p]) (hc : CopyOf f k p v) (hd : f.dom st d = true) :
    f.removed n d = true := by
  have := removed_fold hw hv hI hs h hp hk ho hc hd f.variables sinv_init (fun x hx => (mem_variables hx).1) (.inr hv')
  exact decide_eq_true this

example : Example.good.removed 5 5 = true :=
  dominated_loads_removed Example.good 5 Example.goodBase Example.good_wellFormed Example.good_valid Example.good_initial
    Example.good_not_stored 0 3 9 5 0 0 (by decide) Example.good_single Example.good_plain rfl rfl (.here rfl) (by decide)

omit [DecidableEq I] in
/-- The variables looked at are those at the start of the function: all of them, in a valid module. -/
theorem variables_first (f : Func I B) (l r : List I) (h : f.body f.entry = l ++ r) (hl : ∀ i ∈ l, f.kind i = .variable)
    (v : I) (hv : v ∈ l) : v ∈ f.variables := by
  unfold Func.variables
  rw [h, List.takeWhile_append_of_pos (fun i hi => by simp [hl i hi])]
  simp [hv]

example : (1 : Fin 12) ∈ Example.good.variables :=
  variables_first Example.good [0, 1] [2, 3, 4] rfl (by decide) 1 (by decide)

/-- With relaxed logical addressing the claim is false. A store of the address of a variable counts as a store to the
variable, and a load of the variable is replaced by what is stored, that is by the address: an effect follows
that was not there. -/
theorem stored_address_wrong : ∃ (f : Func (Fin 12) Unit) (n : Nat) (S : Base (Fin 12) Unit Example.Val Example.Val)
    (x : Example.Val), WellFormed f n ∧ (Valid f.code fun d => S.start d ≠ none) ∧ DomSound f ∧ Initial f S ∧ Pointers S ∧
      (∃ i ∈ f.insts, f.kind i = .store ∧ ∃ p v, f.ops i = [p, v] ∧ f.kind v = .variable ∧
        f.single ⟨id, []⟩ n v = some i) ∧
      (∀ c, Reach f.code (sem f S) c → c.mem.2 ≠ x) ∧ ∃ c', Reach (f.after n) (sem f S) c' ∧ c'.mem.2 = x :=
  ⟨Example.bad, 5, Example.badBase, .ptr 0 true, Example.bad_wellFormed, Example.bad_valid, Example.bad_domSound,
    Example.bad_initial, Example.bad_pointers, ⟨2, by decide, rfl, 1, 0, rfl, rfl, by decide⟩,
    fun c h => (Example.bad_before h).out, Example.bad_after⟩

end Verif.SingleStore
