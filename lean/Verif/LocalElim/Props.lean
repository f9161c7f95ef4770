import Verif.LocalElim.Effect
set_option linter.unusedVariables false
/-!
# Local load and store elimination keeps what a function does (C64)

The executions are those of `Verif.SsaExec.Spec`, with the meaning of variables, pointers, loads and
stores given in `Verif.LocalElim.Spec`. The hypotheses: the function is in SSA form (`Valid`) and has the
shape of a function of a valid module (`WellFormed`); the pointer to a variable gives access to the
whole of it (`Pointers`); addressing is logical (`Addressing`). For the relaxed logical addressing that
the optimizer allows for HLSL the claim is false (`stored_address_wrong`), which is why the first two
theorems are partial.
-/
namespace Verif.LocalElim
open Verif.SsaExec Verif.LocalElim.Spec
variable {I B V R : Type} [DecidableEq I]

/-- Every point an execution of the original function comes to is matched by one of the result, and the
other way round: in the same block, after the same instructions, with the same values, the same memory
outside and, at the end of a block, the same contents of the variables. -/
theorem behaviour_kept_partial (f : Func I B) (n : Nat) (S : Base I B V R) (clean : V → Prop) (cleanRest : R → Prop)
    (hw : WellFormed f n) (hv : Valid f.code fun d => S.start d ≠ none) (hP : Pointers S)
    (hA : Addressing f S clean cleanRest) :
    (∀ c, Reach f.code (sem f S) c → ∃ c', Reach (f.after n) (sem f S) c' ∧ Match f S (f.removed n) c c') ∧
    (∀ c', Reach (f.after n) (sem f S) c' → ∃ c, Reach f.code (sem f S) c ∧ Match f S (f.removed n) c c') := by
  have hL := logical hw hv hP hA
  have hR := replace hw hv hP hL
  rw [← after_eq hw hv]
  constructor
  · intro c h
    obtain ⟨c', h1, h2⟩ := sim_fwd hR h
    exact ⟨c', h1, rel_match hw hv hL h h2⟩
  · intro c' h
    obtain ⟨c, h1, h2⟩ := sim_bwd hR h
    exact ⟨c, h1, rel_match hw hv hL h1 h2⟩

/-- The result is in SSA form; so nothing that was removed is used in code that can be reached. -/
theorem result_valid_partial (f : Func I B) (n : Nat) (S : Base I B V R) (clean : V → Prop) (cleanRest : R → Prop)
    (hw : WellFormed f n) (hv : Valid f.code fun d => S.start d ≠ none) (hP : Pointers S)
    (hA : Addressing f S clean cleanRest) : Valid (f.after n) fun d => S.start d ≠ none := by
  rw [← after_eq hw hv]
  exact replaced_valid (replace hw hv hP (logical hw hv hP hA))

/-- A function with stores, loads of the whole and of a part, to which both apply. -/
example : (∀ c, Reach Example.good.code (sem Example.good Example.goodBase) c →
    ∃ c', Reach (Example.good.after 5) (sem Example.good Example.goodBase) c' ∧
      Match Example.good Example.goodBase (Example.good.removed 5) c c') :=
  (behaviour_kept_partial Example.good 5 Example.goodBase _ _ Example.good_wellFormed Example.good_valid Example.good_pointers
    Example.good_addressing).1

example : Valid (Example.good.after 5) fun d => Example.goodBase.start d ≠ none :=
  result_valid_partial Example.good 5 Example.goodBase _ _ Example.good_wellFormed Example.good_valid Example.good_pointers
    Example.good_addressing

example : (Example.good.after 5).body () = [0, 3, 4, 5, 6, 7, 10, 11] ∧ (Example.good.after 5).ops 3 = [.id 8] := by decide

/-- Only loads and stores are removed. -/
theorem only_accesses_removed (f : Func I B) (n : Nat) (hw : WellFormed f n) (i : I) (h : f.removed n i = true) :
    f.kind i = .load ∨ f.kind i = .store := by
  rcases (sinv_run hw).dead i (by simpa [Func.removed] using h) with h | h
  · exact .inr h
  · exact .inl h.1

example : Example.good.removed 5 1 = true ∧ Example.good.removed 5 2 = true ∧ Example.good.removed 5 4 = false := by decide

/-- A load of a variable that was stored to or loaded before in the block is removed, if there is no other
store and no call in between. -/
theorem known_load_removed (f : Func I B) (n : Nat) (hw : WellFormed f n) (b : B) (pre mid post : List I) (i l v : I)
    (hp : f.phis b ++ f.body b = pre ++ i :: (mid ++ l :: post))
    (hv : f.kind v = .variable) (ht : f.target v = true) (hs : f.supported n v = true)
    (hi : (∃ w, f.kind i = .store ∧ f.ops i = [v, w]) ∨ (f.kind i = .load ∧ f.ops i = [v]))
    (hm : ∀ j ∈ mid, f.kind j ≠ .store ∧ f.kind j ≠ .call) (hl : f.kind l = .load) (ho : f.ops l = [v]) :
    f.removed n l = true :=
  load_removed hw hp hv ht hs hi hm hl ho

example : Example.good.removed 5 2 = true :=
  known_load_removed Example.good 5 Example.good_wellFormed () [0] [] [3, 4, 5, 6, 7, 10, 11] 1 2 0 rfl rfl rfl (by decide)
    (.inl ⟨8, rfl, rfl⟩) (by simp) rfl rfl

/-- A store to a variable that is stored to again in the block is removed, if there is no other access and
no call in between and the variable is not declared for debugging. -/
theorem overwritten_store_removed (f : Func I B) (n : Nat) (hw : WellFormed f n) (b : B) (pre mid post : List I) (i l v w w' : I)
    (hp : f.phis b ++ f.body b = pre ++ i :: (mid ++ l :: post))
    (hv : f.kind v = .variable) (ht : f.target v = true) (hs : f.supported n v = true) (hd : f.declared v = false)
    (hi : f.kind i = .store) (hio : f.ops i = [v, w]) (hl : f.kind l = .store) (hlo : f.ops l = [v, w'])
    (hm : ∀ j ∈ mid, f.kind j ≠ .store ∧ f.kind j ≠ .load ∧ f.kind j ≠ .call) : f.removed n i = true :=
  store_removed hw hp hv ht hs hd hi hio hl hlo hm

/-- As `Example.good`, with a debug instruction in the place of the load of a part. -/
example : ({ Example.good with kind := fun i => if i = 6 then .debug else Example.good.kind i } : Func (Fin 12) Unit).removed 5 4 = true := by
  decide

/-- A variable is accepted if its address is used only by loads, stores, access chains and copies (pointers
being neither indices nor operands of phis). -/
theorem private_supported (f : Func I B) (n : Nat) (hw : WellFormed f n) (v : I) (hk : f.kind v = .variable) (h : Private f v)
    (hindex : ∀ u k p, f.kind u = .chain → Direct f k p v → p ∉ (f.ops u).tail)
    (hargs : ∀ u, f.kind u ≠ .other → f.args u = []) : f.supported n v = true := by
  have : ∀ m k p, Direct f k p v → n ≤ m + k → f.supported m p = true := by
    intro m
    induction m with
    | zero =>
      intro k p hd hn
      have := hw.deep k p v hd
      omega
    | succ m ih =>
      intro k p hd hn
      simp only [Func.supported, List.all_eq_true]
      intro u hu
      simp only [Func.users, List.mem_filter, Bool.or_eq_true, decide_eq_true_eq, List.mem_map] at hu
      obtain ⟨hui, hup⟩ := hu
      have hup' : p ∈ f.ops u ∨ ∃ b, (p, b) ∈ f.args u := by
        rcases hup with h1 | ⟨⟨a, b⟩, h1, rfl⟩
        · exact .inl h1
        · exact .inr ⟨b, h1⟩
      have hd' := h k p hd u hui hup'
      have hops : f.kind u ≠ .other → p ∈ f.ops u := by
        intro hk
        rcases hup' with h1 | ⟨b, h1⟩
        · exact h1
        · rw [hargs u hk] at h1; cases h1
      rcases hd' with h1 | h1 | h1 | h1 | ⟨h1, -⟩
      · simp [h1]
      · simp only [h1]
        obtain ⟨q, r, ho⟩ := hw.chain u h1
        have := hops (by simp [h1])
        have hr := hindex u k p h1 hd
        simp only [ho, List.mem_cons, List.tail_cons] at this hr
        rcases this with rfl | this
        · exact ih (k + 1) u (.chain h1 ho hd) (by omega)
        · exact absurd this hr
      · simp only [h1]
        obtain ⟨q, ho⟩ := hw.copy u h1
        have := hops (by simp [h1])
        simp only [ho, List.mem_singleton] at this
        subst this
        exact ih (k + 1) u (.copy h1 ho hd) (by omega)
      · simp [h1]
      · simp [h1]
  exact this n 0 v (.here hk) (by omega)

example : Example.good.supported 5 0 = true :=
  private_supported Example.good 5 Example.good_wellFormed 0 rfl Example.good_private (by
    intro u k p hu hd
    revert hu
    revert u
    apply Example.fin12 <;> simp [Example.good]) (by simp [Example.good])

/-- With relaxed logical addressing the claim is false. The address of a variable is stored to another
variable; `supported` accepts this. A store through the address loaded again is not seen, and
a load afterwards is replaced by what was stored before it: an effect follows that was not there. -/
theorem stored_address_wrong : ∃ (f : Func (Fin 12) Bool) (n : Nat) (S : Base (Fin 12) Bool Example.Val Example.Val)
    (x : Example.Val), WellFormed f n ∧ (Valid f.code fun d => S.start d ≠ none) ∧ Pointers S ∧
      (∃ i ∈ f.insts, f.kind i = .store ∧ ∃ p v, f.ops i = [p, v] ∧ f.kind v = .variable ∧ f.target v = true ∧
        f.supported n v = true) ∧
      (∀ c, Reach f.code (sem f S) c → c.mem.2 ≠ x) ∧ ∃ c', Reach (f.after n) (sem f S) c' ∧ c'.mem.2 = x :=
  ⟨Example.bad, 5, Example.badBase, .num 42, Example.bad_wellFormed, Example.bad_valid, Example.bad_pointers,
    ⟨2, by decide, rfl, 1, 0, rfl, rfl, rfl, by decide⟩,
    fun c h => (Example.bad_before h).out, Example.bad_after⟩

end Verif.LocalElim
