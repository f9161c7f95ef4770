/-!
# Loop unrolling: the number of iterations and what is copied

Models, from `source/opt/loop_descriptor.cpp`, `Loop::FindNumberOfIterations`,
`Loop::GetIterations` and `Loop::GetResidualConditionValue`, from `source/opt/constants.h` and
`constants.cpp` the readers of integer constants, and from `source/opt/loop_unroller.cpp` the
decisions of `LoopUtils::PartiallyUnroll` and `FullyUnroll` together with the control flow of the
loops they produce.

How a loop is represented. `CanPerformUnroll` (loop_unroller.cpp:1042-1119) lets through loops with
one exit, one edge to the continue target and no returns: a header, code up to the block that
decides whether to leave, then code up to the latch. `Loop.pre` is the effect of the code before
the decision, `Loop.post` of that after it; both may use the induction value. All other values
carried around the loop, memory included, are the state `σ`.

Not modelled: finding loops, the copying of single instructions and their renaming, phis outside
the loop, debug information, decorations, running out of ids. Assertions are taken to be compiled
out, as in a release build.
-/

namespace Verif.Unroll

abbrev Word := BitVec 32

/-- `analysis::IntConstant` and `analysis::NullConstant` of an integer type, constants.h:160-220. -/
structure IntConst where
  width : Nat
  signed : Bool
  null : Bool
  words : List Word
deriving Repr, DecidableEq

/-- `words()[i]`. -/
def IntConst.word (c : IntConst) (i : Nat) : Word := c.words.getD i 0

/-- constants.cpp:105-142 `GetZeroExtendedValue` and `GetSignExtendedValue` as selected by
loop_descriptor.cpp:200-201 and 684-686, stored in an `int64_t`. -/
def IntConst.value (c : IntConst) : Int :=
  if c.null then 0
  else if c.width ≤ 32 then
    if c.signed then (c.word 0).toInt else (c.word 0).toNat
  else (c.word 1 ++ c.word 0 : BitVec 64).toInt

/-- loop_descriptor.cpp:700-709: the step, through `GetS32BitValue` or `GetU32BitValue`
(constants.h:169-174, 203-208), whatever the width. -/
def IntConst.step (c : IntConst) : Int :=
  if c.signed then (c.word 0).toInt else (c.word 0).toNat

/-- The conditions of loop_descriptor.cpp:96-116; whether the comparison is signed is kept apart,
since the code never looks at it. -/
inductive Rel where
  | lt | gt | le | ge
deriving Repr, DecidableEq

/-- An `int64_t` result; `none`: signed overflow, which is undefined behaviour. -/
def i64 (v : Int) : Option Int :=
  if -2 ^ 63 ≤ v ∧ v < 2 ^ 63 then some v else none

/-- loop_descriptor.cpp:839-848. -/
def divideUp (diff step : Int) : Int :=
  let s : Int := step.natAbs
  let d : Int := diff.natAbs
  if d.tmod s ≠ 0 then d.tdiv s + 1 else d.tdiv s

/-- loop_descriptor.cpp:753-849 `Loop::GetIterations`; `none`: undefined behaviour. -/
def getIterations (rel : Rel) (bound init step : Int) : Option Int :=
  if step = 0 then some 0
  else
    match rel with
    | .lt =>
      if ¬ init < bound then some 0
      else (i64 (bound - init)).bind fun diff =>
        if (diff < 0 ∧ step > 0) ∨ (diff > 0 ∧ step < 0) then some 0
        else some (divideUp diff step)
    | .gt =>
      if ¬ init > bound then some 0
      else (i64 (init - bound)).bind fun diff =>
        if (diff < 0 ∧ step < 0) ∨ (diff > 0 ∧ step > 0) then some 0
        else some (divideUp diff step)
    | .ge =>
      if ¬ init ≥ bound then some 0
      else (i64 (bound - 1)).bind fun b => (i64 (init - b)).bind fun diff =>
        if (diff > 0 ∧ step > 0) ∨ (diff < 0 ∧ step < 0) then some 0
        else some (divideUp diff step)
    | .le =>
      if ¬ init ≤ bound then some 0
      else (i64 (bound + 1)).bind fun b => (i64 (b - init)).bind fun diff =>
        if (diff < 0 ∧ step > 0) ∨ (diff > 0 ∧ step < 0) then some 0
        else some (divideUp diff step)

/-- What `FindNumberOfIterations` reads: the condition `phi rel bound`, the step instruction
`phi ± step` and the value of the phi on entry. `none`: not an integer constant. -/
structure Counter where
  rel : Rel
  bound : Option IntConst
  sub : Bool
  step : Option IntConst
  init : Option IntConst
deriving Repr, DecidableEq

inductive Found where
  /-- signed overflow -/
  | undefined
  /-- returns false -/
  | no
  /-- returns true: number of iterations, step, initial value -/
  | yes (n : Nat) (step init : Int)
deriving Repr, DecidableEq

/-- loop_descriptor.cpp:658-747 `Loop::FindNumberOfIterations`. -/
def findIterations (c : Counter) : Found :=
  match c.bound with
  | none => .no
  | some b =>
    if b.width > 64 then .no
    else
      match c.step with
      | none => .no
      | some s =>
        let step := if c.sub then -s.step else s.step
        match c.init with
        | none => .no
        | some i =>
          match getIterations c.rel b.value i.value step with
          | none => .undefined
          | some n => if n ≤ 0 then .no else .yes n.toNat step i.value

/-- loop_descriptor.cpp:118-145 `Loop::GetResidualConditionValue`. The number of iterations is a
`size_t`, so that sum and product are computed modulo `2^64`. `none`: signed overflow. -/
def residualValue (rel : Rel) (init step : Int) (n factor : Nat) : Option Int :=
  let remainder :=
    (BitVec.ofInt 64 init + BitVec.ofNat 64 (n % factor) * BitVec.ofInt 64 step).toInt
  match rel with
  | .ge => i64 (remainder - 1)
  | .le => i64 (remainder + 1)
  | .lt | .gt => some remainder

/-- What becomes of a loop. -/
inductive Unrolled where
  | undefined
  /-- `LoopUtils` returns false: the pass reports failure. -/
  | failed
  /-- `n` copies in a row, all conditions folded. -/
  | full (n : Nat)
  /-- A loop of `f` copies of which the first keeps its condition. -/
  | partly (f : Nat)
  /-- The loop with the new 32-bit bound `b`, followed by a loop of `f` copies. -/
  | residual (f : Nat) (b : Word)
deriving Repr, DecidableEq

/-- loop_unroller.cpp:1155-1170 `LoopUtils::FullyUnroll`. -/
def fullyUnroll (c : Counter) : Unrolled :=
  match findIterations c with
  | .undefined => .undefined
  | .no => .failed
  | .yes n _ _ => .full n

/-- loop_unroller.cpp:1121-1153 `LoopUtils::PartiallyUnroll`; the new bound is made in
loop_unroller.cpp:449-477: a 32-bit constant, signed if negative. Dividing by zero is undefined. -/
def partiallyUnroll (c : Counter) (factor : Nat) : Unrolled :=
  if factor = 1 then .failed
  else
    match findIterations c with
    | .undefined => .undefined
    | .no => .failed
    | .yes n step init =>
      if factor ≥ n then .full n
      else if factor = 0 then .undefined
      else if n % factor ≠ 0 then
        match residualValue c.rel init step n factor with
        | none => .undefined
        | some r => .residual factor (BitVec.ofInt 32 r)
      else .partly factor

/-- A loop with a counter of `w` bits. -/
structure Loop (w : Nat) (σ : Type) where
  rel : Rel
  /-- The opcode compares signed numbers. -/
  signed : Bool
  bound : BitVec w
  init : BitVec w
  sub : Bool
  step : BitVec w
  /-- The true label of the conditional branch is the merge block. Nothing in
  `FindConditionBlock` (loop_descriptor.cpp:619-656) excludes this. -/
  leaveOnTrue : Bool
  pre : BitVec w → σ → σ
  post : BitVec w → σ → σ

/-- The condition of a loop, by the meaning of the opcode. -/
def compare (rel : Rel) (signed : Bool) (x y : BitVec w) : Bool :=
  match rel, signed with
  | .lt, true => x.slt y
  | .lt, false => x.ult y
  | .gt, true => y.slt x
  | .gt, false => y.ult x
  | .le, true => x.sle y
  | .le, false => x.ule y
  | .ge, true => y.sle x
  | .ge, false => y.ule x

/-- The branch goes on to the rest of the loop. -/
def Loop.stays (l : Loop w σ) (x : BitVec w) : Bool :=
  compare l.rel l.signed x l.bound != l.leaveOnTrue

/-- The step instruction. -/
def Loop.next (l : Loop w σ) (x : BitVec w) : BitVec w :=
  if l.sub then x - l.step else x + l.step

/-- `n` copies of the body whose conditions have been folded: the branch goes to its first label
(loop_unroller.cpp:784-808 `FoldConditionBlock` with operand 1), so that the copy is left when that
is the merge block. The result says whether it was. -/
def Loop.copies (l : Loop w σ) : Nat → BitVec w × σ → Bool × BitVec w × σ
  | 0, p => (false, p)
  | n + 1, (x, s) =>
    if l.leaveOnTrue then (true, x, l.pre x s)
    else l.copies n (l.next x, l.post x (l.pre x s))

/-- Runs of the loop of `f` copies (loop_unroller.cpp:1021-1028): the first copy keeps its condition,
the last one goes back to it. -/
inductive Loop.RunsBy (l : Loop w σ) (f : Nat) : BitVec w × σ → BitVec w × σ → Prop where
  | leave {x s} : l.stays x = false → l.RunsBy f (x, s) (x, l.pre x s)
  | again {x s p r} : l.stays x = true →
      l.copies (f - 1) (l.next x, l.post x (l.pre x s)) = (false, p) →
      l.RunsBy f p r → l.RunsBy f (x, s) r
  | inside {x s p} : l.stays x = true →
      l.copies (f - 1) (l.next x, l.post x (l.pre x s)) = (true, p) → l.RunsBy f (x, s) p

/-- Runs of the loop after unrolling, from the state `s` before the loop to the induction value and
state after it.
* loop_unroller.cpp:597-631, 810-852: straight code, the induction variable starts with its initial
  value, uses after the loop see the value of the last step;
* loop_unroller.cpp:379-528: the original loop with the new bound, whose exit enters the duplicate.
  The bound has 32 bits whatever the induction variable has: otherwise the result is not valid. -/
def Unrolled.Runs (u : Unrolled) (l : Loop w σ) (s : σ) (r : BitVec w × σ) : Prop :=
  match u with
  | .undefined | .failed => False
  | .full n => (l.copies n (l.init, s)).2 = r
  | .partly f => l.RunsBy f (l.init, s) r
  | .residual f b =>
    w = 32 ∧ ∃ m, ({ l with bound := b.setWidth w } : Loop w σ).RunsBy 1 (l.init, s) m ∧
      l.RunsBy f m r

/-- loop_unroller.cpp:1185-1219: what `LoopUnroller::Process` reports for a module with this one
loop, when it is asked for the given factor. `none`: undefined behaviour. -/
def processOne (c : Counter) (factor : Nat) : Option Bool :=
  -- `CanPerformUnroll` asks for a number of iterations
  match findIterations c with
  | .undefined => none
  | .no => some true
  | .yes _ _ _ =>
    match partiallyUnroll c factor with
    | .undefined => none
    | .failed => some false
    | _ => some true

end Verif.Unroll
