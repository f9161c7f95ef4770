import Verif.Ssa.Check

/-
# Concrete functions: a loop, and the two that go wrong
-/

set_option linter.unusedSimpArgs false

namespace Verif.Ssa

/-! ## A loop -/

/-- `x := 20; while (..) { x := f(x, 21) }; g(x)` -/
def loopP : Prog where
  entry := 1
  insts b := match b with
    | 1 => [.store 0 20]
    | 2 => [.load 30 0, .other 31 [30, 21]]
    | 3 => [.store 0 31]
    | 4 => [.load 32 0, .other 33 [32]]
    | _ => []
  preds b := match b with
    | 2 => [1, 3]
    | 3 => [2]
    | 4 => [2]
    | _ => []
  order := [1, 2, 3, 4]
  undef _ := 99

def loopOut : Out := ⟨[(100, 2, [(1, 20), (3, 31)])], [(30, 100), (32, 100)]⟩

theorem loop_valid : Valid loopP 100 :=
  valid_of_check (u := 99) (fun _ => rfl) (by decide) (by decide) (by decide +kernel)
    (fun c hc => by simp [loopP] at hc ⊢; split <;> simp_all) (by decide +kernel)

theorem loop_rewrite : rewrite loopP 10 100 = some (loopOut, false) := by decide +kernel

theorem loop_closed : loopOut.Closed 100 := by
  intro e he
  simp [loopOut] at he ⊢
  rcases he with rfl | rfl <;> simp

/-- Two rounds, then the exit. -/
theorem loop_trace : Trace loopP [(4, 2), (4, 1), (4, 0), (2, 2), (2, 1), (2, 0), (3, 1), (3, 0),
    (2, 2), (2, 1), (2, 0), (1, 1), (1, 0)] := by
  refine .step (.step (.edge (.step (.step (.edge (.step (.edge (.step (.step (.edge
    (.step .start ?_) ?_ ?_) ?_) ?_) ?_ ?_) ?_) ?_ ?_) ?_) ?_) ?_ ?_) ?_) ?_ <;> decide +kernel

example (F : Id → List Int → Int) (G : Id → Int) :
    after F loopP loopOut G [(4, 2), (4, 1), (4, 0), (2, 2), (2, 1), (2, 0), (3, 1), (3, 0),
      (2, 2), (2, 1), (2, 0), (1, 1), (1, 0)] 33 =
    (before F loopP G (fun _ => G 99) [(4, 2), (4, 1), (4, 0), (2, 2), (2, 1), (2, 0), (3, 1), (3, 0),
      (2, 2), (2, 1), (2, 0), (1, 1), (1, 0)]).1 33 :=
  ssa_values_kept_partial loop_valid loop_rewrite loop_closed F G (fun _ => G 99) (fun _ => rfl)
    loop_trace (b := 4) (by decide) (ops := [32]) (by decide)

/-! ## A store forgotten -/

/-- Block 4 is in an inner loop: it reads, then stores 22.  When the candidate made for its
read turns out to be a copy of 21, `ReplacePhiUsersWith` writes 21 over the 22 recorded for
block 4 (ssa_rewrite_pass.cpp:115-118), so what leaves the loop is 21. -/
def badP : Prog where
  entry := 1
  insts b := match b with
    | 1 => [.store 0 20]
    | 3 => [.store 0 21]
    | 4 => [.load 30 0, .store 0 22]
    | 5 => [.store 0 21]
    | 8 => [.load 31 0, .other 33 [31]]
    | _ => []
  preds b := match b with
    | 2 => [1, 9]
    | 3 => [2]
    | 4 => [3, 6]
    | 5 => [4]
    | 6 => [5]
    | 7 => [4]
    | 8 => [2]
    | 9 => [7, 8]
    | 10 => [9]
    | _ => []
  order := [1, 2, 3, 4, 5, 6, 7, 8, 9, 10]
  undef _ := 99

def badOut : Out := ⟨[(102, 9, [(7, 21), (8, 101)]), (101, 2, [(1, 20), (9, 102)])],
  [(30, 21), (31, 101)]⟩

def badTrace : List Pt := [(8, 2), (8, 1), (8, 0), (2, 0), (9, 0), (7, 0), (4, 2), (4, 1), (4, 0),
  (3, 1), (3, 0), (2, 0), (1, 1), (1, 0)]

theorem bad_valid : Valid badP 100 :=
  valid_of_check (u := 99) (fun _ => rfl) (by decide) (by decide) (by decide +kernel)
    (fun c hc => by simp [badP] at hc ⊢; split <;> simp_all) (by decide +kernel)

theorem bad_rewrite : rewrite badP 20 100 = some (badOut, true) := by decide +kernel

theorem bad_trace : Trace badP badTrace := by
  refine .step (.step (.edge (.edge (.edge (.edge (.step (.step (.edge (.step (.edge (.edge
    (.step .start ?_) ?_ ?_) ?_ ?_) ?_) ?_ ?_) ?_) ?_) ?_ ?_) ?_ ?_) ?_ ?_) ?_ ?_) ?_) ?_ <;>
    decide +kernel

/-- The rewriting of a valid function computes another value: the operand of the last
instruction was the value of 22 and is the value of 21. -/
theorem ssa_store_lost : ∃ (P : Prog) (fresh fuel : Id) (o : Out) (t : List Pt), Valid P fresh ∧
    (∃ c, rewrite P fuel fresh = some (o, c)) ∧ o.Closed fresh ∧ Trace P t ∧
    (before (fun _ xs => xs.sum) P (fun x : Id => x) (fun _ => 99) t).1 33 = 22 ∧
    after (fun _ xs => xs.sum) P o (fun x : Id => x) t 33 = 21 := by
  refine ⟨badP, 100, 20, badOut, badTrace, bad_valid, ⟨true, bad_rewrite⟩, ?_, bad_trace,
    by decide +kernel, by decide +kernel⟩
  intro e he
  simp [badOut] at he ⊢
  rcases he with rfl | rfl <;> simp

/-! ## A load replaced by nothing -/

/-- Block 50 is an unreachable predecessor of block 2. -/
def staleP : Prog where
  entry := 1
  insts b := match b with
    | 9 => [.store 0 22]
    | 8 => [.load 31 0, .other 33 [31]]
    | 6 => [.load 30 0, .other 34 [30]]
    | _ => []
  preds b := match b with
    | 2 => [1, 5, 50]
    | 3 => [2, 6]
    | 4 => [3]
    | 5 => [4]
    | 6 => [3]
    | 8 => [2, 5, 9]
    | 9 => [1]
    | _ => []
  order := [1, 9, 2, 3, 4, 5, 8, 6]
  undef _ := 99

theorem stale_valid : Valid staleP 100 :=
  valid_of_check (u := 99) (fun _ => rfl) (by decide) (by decide) (by decide +kernel)
    (fun c hc => by simp [staleP] at hc ⊢; split <;> simp_all) (by decide +kernel)

/-- The rewriting of a valid function uses an id, 101, that nothing defines. -/
theorem ssa_stale_load : ∃ (P : Prog) (fresh fuel : Id) (o : Out), Valid P fresh ∧
    rewrite P fuel fresh = some (o, false) ∧ (30, 101) ∈ o.repl ∧ fresh ≤ 101 ∧
    ∀ f ∈ o.phis, f.1 ≠ 101 :=
  ⟨staleP, 100, 20, ⟨[(100, 8, [(2, 99), (5, 99), (9, 22)])], [(31, 100), (30, 101)]⟩, stale_valid,
    by decide +kernel, by decide, by decide, by decide⟩

end Verif.Ssa
