import Verif.Unroll.Props
/-!
# Loop unrolling: loops that meet the conditions, and loops the code gets wrong
-/
set_option maxRecDepth 4000

namespace Verif.Unroll.Example
open Spec

/-- An integer constant of one word. -/
def int32 (signed : Bool) (b : BitVec 32) : IntConst := ⟨32, signed, false, [b]⟩

/-- A counting loop whose body appends the induction value to the state. -/
def loop (rel : Rel) (signed : Bool) (init bound step : BitVec 32) (sub : Bool) : Loop 32 (List Nat) :=
  { rel, signed, bound, init, sub, step, leaveOnTrue := false,
    pre := fun _ s => s, post := fun x s => s ++ [x.toNat] }

def counter (rel : Rel) (signed : Bool) (init bound step : BitVec 32) (sub : Bool) : Counter :=
  { rel, bound := some (int32 signed bound), sub, step := some (int32 signed step),
    init := some (int32 signed init) }

theorem denotes (signed : Bool) (b : BitVec 32) : Denotes (int32 signed b) b := by
  refine ⟨rfl, ?_⟩
  cases signed <;> simp [int32, words]

theorem describes (rel : Rel) (signed : Bool) (init bound step : BitVec 32) (sub : Bool) :
    Describes (counter rel signed init bound step sub) (loop rel signed init bound step sub)
      (int32 signed bound) (int32 signed init) (int32 signed step) :=
  { width := by omega, rel := rfl, sub := rfl, bound := rfl, init := rfl, step := rfl,
    boundBits := denotes _ _, initBits := denotes _ _, stepBits := denotes _ _, stepConst := rfl }

theorem sameSign (signed : Bool) (b : BitVec 32) : SameSign signed (int32 signed b) b :=
  Or.inl ⟨rfl, Or.inl (by omega)⟩

/-- `for (int i = 0; i < 10; ++i)` runs ten times. -/
example : findIterations (counter .lt true 0 10 1 false) = .yes 10 1 0 ∧
    Trips (loop .lt true 0 10 1 false) 10 := by
  have hf : findIterations (counter .lt true 0 10 1 false) = .yes 10 1 0 := by decide +kernel
  refine ⟨hf, ?_⟩
  obtain ⟨_, _, _, _, h⟩ := iterations_exact_partial (describes .lt true 0 10 1 false) (sameSign _ _)
    (sameSign _ _) (Or.inl (by omega)) rfl hf
  rw [h]
  unfold InRange num delta
  decide +kernel

/-- `for (uint i = 100; i > 3; i -= 5)` is found to run twenty times. -/
example : findIterations (counter .gt false 100 3 5 true) =
    .yes 20 (delta (int32 false 5) (loop .gt false 100 3 5 true)) 100 :=
  iterations_found (describes .gt false 100 3 5 true) (by omega) (sameSign _ _) (sameSign _ _) rfl
    (by omega) (by unfold Trips; decide +kernel) (by unfold InRange num delta; decide +kernel)

/-- Unrolled by three: once around, then three times three bodies. -/
example : partiallyUnroll (counter .lt true 0 10 1 false) 3 = .residual 3 1 := by decide +kernel

example (s : List Nat) (r) : Runs (loop .lt true 0 10 1 false) (0, s) r ↔
    (Unrolled.residual 3 1).Runs (loop .lt true 0 10 1 false) s r :=
  unroll_right_partial (describes .lt true 0 10 1 false) (sameSign _ _) (sameSign _ _) (Or.inl (by omega))
    (by
      intro n st it h
      have hf : findIterations (counter .lt true 0 10 1 false) = .yes 10 1 0 := by decide +kernel
      rw [hf] at h
      simp only [Found.yes.injEq] at h
      obtain ⟨rfl, _, _⟩ := h
      right
      unfold InRange num delta
      decide +kernel)
    (fun _ _ => rfl) (Or.inr ⟨3, by decide +kernel⟩) (by decide) (fun _ _ _ => ⟨rfl, Or.inl rfl⟩) s r

/-- C55 is false of the code: `for (uint i = 5; i < 10; i += 0xFFFFFFFF)` runs six times, not once. -/
theorem iterations_wrap :
    (∃ st it, findIterations (counter .lt false 5 10 0xFFFFFFFF false) = .yes 1 st it) ∧
    Trips (loop .lt false 5 10 0xFFFFFFFF false) 6 :=
  ⟨⟨4294967295, 5, by decide +kernel⟩, by unfold Trips; decide +kernel⟩

/-- C55 is false of the code: `for (int i = 0; i <= 0x7FFFFFFF; ++i)` never ends, yet a number of
iterations is found. -/
theorem iterations_endless :
    (∃ n st it, findIterations (counter .le true 0 0x7FFFFFFF 1 false) = .yes n st it) ∧
    ∀ n, ¬ Trips (loop .le true 0 0x7FFFFFFF 1 false) n := by
  refine ⟨⟨2147483648, 1, 0, by decide +kernel⟩, fun n h => ?_⟩
  have : ∀ x, (loop .le true 0 0x7FFFFFFF 1 false).stays x = true := by
    intro x
    rw [stays_iff rfl]
    have h2 : x.toInt < 2 ^ 31 := BitVec.toInt_lt (x := x)
    have h3 : (2147483647#32).toInt = 2147483647 := by decide
    simp only [relNum, num, loop]
    simp only [if_true]
    show x.toInt ≤ (2147483647#32).toInt
    omega
  have h2 := h.2
  rw [this] at h2
  exact absurd h2 (by decide)

/-- C55 is false of the code: an unsigned comparison with the constant `-1` of a signed type. The
loop does not run at all. -/
theorem iterations_signedness :
    (∃ n st it, findIterations ⟨.gt, some (int32 true 0xFFFFFFFF), true, some (int32 false 1),
        some (int32 false 0)⟩ = .yes n st it) ∧
    Trips (loop .gt false 0 0xFFFFFFFF 1 true) 0 :=
  ⟨⟨1, -1, 0, by decide +kernel⟩, by unfold Trips; decide +kernel⟩

/-- A counting loop of 64 bits. -/
def loop64 (step bound : BitVec 64) : Loop 64 Unit :=
  { rel := .lt, signed := true, bound := bound, init := 0, sub := false, step := step,
    leaveOnTrue := false, pre := fun _ s => s, post := fun _ s => s }

def int64 (b : BitVec 64) : IntConst := ⟨64, true, false, words true b⟩

/-- C55 is false of the code: only the low word of a step of 64 bits is read. The loop with step
`2^32 + 1` runs once, not ten times. -/
theorem iterations_step64 :
    (∃ st it, findIterations ⟨.lt, some (int64 10), false, some (int64 0x100000001),
        some (int64 0)⟩ = .yes 10 st it) ∧
    Trips (loop64 0x100000001 10) 1 :=
  ⟨⟨1, 0, by decide +kernel⟩, by unfold Trips; decide +kernel⟩

/-- C55 is false of the code: the arithmetic of `GetIterations` overflows. -/
theorem iterations_overflow :
    findIterations ⟨.lt, some (int64 0x7FFFFFFFFFFFFFFF), false, some (int64 1),
        some (int64 0x8000000000000000)⟩ = .undefined := by
  decide +kernel

/-- C55 is false of the code: which label of the branch leaves the loop is not looked at. -/
theorem iterations_polarity :
    (∃ st it, findIterations (counter .lt true 0 10 1 false) = .yes 10 st it) ∧
    Trips { loop .lt true 0 10 1 false with leaveOnTrue := true } 0 :=
  ⟨⟨1, 0, by decide +kernel⟩, by unfold Trips; decide +kernel⟩

/-- C56 is false of the code: `for (int i = 10; i >= 1; --i)` unrolled by three runs its body twelve
times instead of ten. -/
theorem unroll_residual_wrong :
    partiallyUnroll (counter .ge true 10 1 1 true) 3 = .residual 3 8 ∧
    (∃ r, Runs (loop .ge true 10 1 1 true) (10, []) r ∧ r.2.length = 10) ∧
    (∃ r, (Unrolled.residual 3 8).Runs (loop .ge true 10 1 1 true) [] r ∧ r.2.length = 12) := by
  refine ⟨by decide +kernel, ⟨_, runs_iter 10 _ (by decide +kernel) (by decide +kernel), by decide +kernel⟩,
    ⟨_, ⟨rfl, _, runsBy_iter (l := loop .ge true 10 8 1 true) (f := 1) rfl (by omega) 3 (10, [])
      (by decide +kernel) (by decide +kernel),
      runsBy_iter (l := loop .ge true 10 1 1 true) (f := 3) rfl (by omega) 3
        (exit (loop .ge true 10 8 1 true) (iter (loop .ge true 10 8 1 true) (3 * 1) (10, [])))
        (by decide +kernel) (by decide +kernel)⟩, by decide +kernel⟩⟩

/-- The same loop, whose header appends 77 to the state before the decision. -/
def busyLoop : Loop 32 (List Nat) :=
  { loop .lt true 0 2 1 false with pre := fun _ s => s ++ [77] }

/-- C56 is false of the code: what the header does when the loop is left is lost. -/
theorem unroll_header_wrong :
    fullyUnroll (counter .lt true 0 2 1 false) = .full 2 ∧
    Runs busyLoop (0, []) (2, [77, 0, 77, 1, 77]) ∧
    (Unrolled.full 2).Runs busyLoop [] (2, [77, 0, 77, 1]) :=
  ⟨by decide +kernel,
   runs_iter (l := busyLoop) 2 (0, []) (by decide +kernel) (by decide +kernel), rfl⟩

/-- The pass fails when asked for a factor of one. -/
example : processOne (counter .lt true 0 10 1 false) 1 = some false :=
  factor_one_fails (n := 10) (st := 1) (it := 0) (by decide +kernel)

end Verif.Unroll.Example
