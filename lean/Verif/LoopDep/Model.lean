import Verif.ScalarEvo.Model

/-!
# Loop dependence: are two memory accesses in a loop nest independent?

Models `source/opt/loop_dependence.cpp`, `source/opt/loop_dependence_helpers.cpp`, the parts of
`source/opt/loop_dependence.h` that these use and, from `source/opt/scalar_analysis.cpp`,
`GetCoefficientFromRecurrentTerm`, `UpdateChildNode`, `BuildGraphWithoutRecurrentTerm` and
`GetRecurrentTerm`. Expressions and their simplification are those of `Verif.ScalarEvo`.

How the module is represented. An instruction is a number. What the scalar analysis makes of an
instruction (`AnalyzeInstruction`) is given (`Ctx.node`), and so is what the analysis looks up
about a loop (`LoopInfo`). Sets and partitions of sets whose order depends on addresses are ordered
by parameters (`Sched`), about which nothing is assumed but that they keep the elements.

Not modelled: the debug output (but the values computed for it, which may dereference a null
pointer, are), `pretend_equal_`, building expressions from instructions.
-/

namespace Verif.LoopDep

open Verif.ScalarEvo (Node Order simplify createNegation createMultiply createAdd
  createSubtraction addAll)

/-- What can go wrong, apart from the errors of the scalar analysis: `null` is the use of a null
pointer, `divZero` an integer division by zero and `range` an index past the end of a vector, all
undefined behaviour in C++; `fuel` only says that a bound of the model was too small. -/
inductive Err where
  | scalar (e : ScalarEvo.Err)
  | null
  | divZero
  | range
  | fuel
deriving DecidableEq, Repr

/-- An operation of the scalar analysis. -/
def sc {α : Type} : Except ScalarEvo.Err α → Except Err α
  | .ok a => .ok a
  | .error e => .error (.scalar e)

/-- A signed 64-bit computation whose exact result is `x`. -/
def i64 (x : Int) : Except Err Int := sc (ScalarEvo.i64 x)

/-- Use of a pointer which may be null. -/
def deref {α : Type} : Option α → Except Err α
  | some a => .ok a
  | none => .error .null

/-- `a / b` on `int64_t`. -/
def div64 (a b : Int) : Except Err Int :=
  if b = 0 then .error .divZero else i64 (a.tdiv b)

/-- `a % b` on `int64_t`; undefined as well where `a / b` cannot be represented. -/
def mod64 (a b : Int) : Except Err Int :=
  if b = 0 then .error .divZero else do
    let _ ← i64 (a.tdiv b)
    return a.tmod b

/-- `std::abs`, `llabs`. -/
def abs64 (a : Int) : Except Err Int := i64 a.natAbs

/-- The supported loop conditions, loop_descriptor.cpp:96-116; signed and unsigned ones are treated
alike (loop_dependence_helpers.cpp:57-64, 90-114). -/
inductive Rel where
  | lt | gt | le | ge
deriving DecidableEq, Repr

/-- What the analysis looks up about a loop. -/
structure LoopInfo where
  /-- `GetConditionInst` (loop_descriptor.cpp:147-164). -/
  cond : Option Rel
  /-- The first operand of the condition, looked through one phi
  (loop_dependence_helpers.cpp:54-72); `none`: a phi of a phi. -/
  lhs : Option Node
  /-- The second operand of the condition. -/
  rhs : Node
  /-- The phis of the header (loop_descriptor.cpp:851-858 `GetInductionVariables`). -/
  phis : List Node
  /-- The initial value which `GetFirstTripInductionNode` (loop_dependence_helpers.cpp:280-297)
  finds; `none`: any of its steps fails. -/
  init : Option Int
  /-- The number of iterations which `GetTripCount` (loop_dependence_helpers.cpp:251-278) finds;
  `none`: any of its steps fails. -/
  trips : Option Int

/-- How the pointer operand of a load or store was made. -/
inductive PtrDef where
  /-- A variable. -/
  | var
  /-- `OpAccessChain`: the base and the index instructions. -/
  | chain (base : Nat) (subs : List Nat)
  /-- `OpInBoundsAccessChain`; the analysis does not know it. -/
  | inBounds (base : Nat) (subs : List Nat)
deriving DecidableEq, Repr

/-- The analysis and what it can ask. -/
structure Ctx where
  order : Order
  /-- How deep `SimplifyExpression` may call itself. -/
  fuel : Nat
  /-- `loops_`. -/
  loops : List Nat
  info : Nat → LoopInfo
  /-- `AnalyzeInstruction`. -/
  node : Nat → Node
  ptr : Nat → PtrDef

/-- The orders of containers with pointers in them. -/
structure Sched where
  /-- The order of a `std::set` of pairs of instructions. -/
  pairs : List (Nat × Nat) → List (Nat × Nat)
  /-- The order in which `std::partition` leaves the elements of one side. -/
  groups : List (List (Nat × Nat)) → List (List (Nat × Nat))

/-- `SimplifyExpression`. -/
def Ctx.simp (c : Ctx) (n : Node) : Except Err Node := sc (simplify c.order c.fuel n)

/-- `SimplifyExpression(CreateSubtraction(a, b))`. -/
def Ctx.simpSub (c : Ctx) (a b : Node) : Except Err Node := do
  c.simp (← sc (createSubtraction c.order a b))

/-- `SimplifyExpression(CreateAddNode(a, b))`. -/
def Ctx.simpAdd (c : Ctx) (a b : Node) : Except Err Node := do
  c.simp (← sc (createAdd c.order a b))

/-- `AsSEConstantNode` and `FoldToSingleValue`. -/
def asConst : Node → Option Int
  | .const v => some v
  | _ => none

/-- `AsSERecurrentNode`: loop, offset and coefficient. -/
def asRecur : Node → Option (Nat × Node × Node)
  | .recur l off coef => some (l, off, coef)
  | _ => none

/-- The loop of a recurrent expression. -/
def loopOf : Node → Option Nat
  | .recur l _ _ => some l
  | _ => none

/-- scalar_analysis_nodes.h:114-130 `CollectRecurrentNodes`; the order in which children are
visited does not matter for its users. -/
def collect (n : Node) : List Node := n.recurrents

mutual
/-- scalar_analysis_nodes.h:133-149 `CollectValueUnknownNodes`, as far as it is used: are there
any? -/
def hasUnknown : Node → Bool
  | .const _ => false
  | .unknown _ => true
  | .recur _ off coef => hasUnknown off || hasUnknown coef
  | .add cs => hasUnknownList cs
  | .mul a b => hasUnknown a || hasUnknown b
  | .neg a => hasUnknown a
  | .cant => false
def hasUnknownList : List Node → Bool
  | [] => false
  | c :: cs => hasUnknown c || hasUnknownList cs
end

/-- Add to a set. -/
def insertNew {α : Type} [DecidableEq α] (a : α) (l : List α) : List α :=
  if a ∈ l then l else l ++ [a]

/-- The elements of `l` as a set. -/
def toSet {α : Type} [DecidableEq α] : List α → List α → List α
  | acc, [] => acc
  | acc, a :: l => toSet (insertNew a acc) l

/-- loop_dependence_helpers.cpp:317-329 `CollectLoops` of a list of recurrent expressions. -/
def loopsOf (ns : List Node) : List Nat := toSet [] (ns.filterMap loopOf)

/-- loop_dependence_helpers.cpp:331-344 `CountInductionVariables` of one node. -/
def countLoops (n : Node) : Nat := (loopsOf (collect n)).length

/-- loop_dependence_helpers.cpp:346-362 `CollectLoops` of a pair. -/
def pairLoops (s d : Node) : List Nat := loopsOf (collect s ++ collect d)

/-- loop_dependence_helpers.cpp:197-224 `GetLoopForSubscriptPair`. -/
def loopForPair (s d : Node) : Option Nat :=
  match pairLoops s d with
  | [l] => some l
  | _ => none

/-- loop_dependence_helpers.cpp:30-34 `IsZIV`. -/
def isZIV (s d : Node) : Bool := (pairLoops s d).length == 0
/-- loop_dependence_helpers.cpp:36-40 `IsSIV`. -/
def isSIV (s d : Node) : Bool := (pairLoops s d).length == 1
/-- loop_dependence_helpers.cpp:42-46 `IsMIV`. -/
def isMIV (s d : Node) : Bool := decide ((pairLoops s d).length > 1)

/-- loop_dependence_helpers.cpp:48-78 `GetLowerBound`; `none`: a null pointer. -/
def Ctx.lowerBound (c : Ctx) (l : Nat) : Except Err (Option Node) :=
  match (c.info l).cond, (c.info l).lhs with
  | some _, some n => do return some (← c.simp n)
  | _, _ => .ok none

/-- loop_dependence_helpers.cpp:80-119 `GetUpperBound`; `none`: a null pointer. -/
def Ctx.upperBound (c : Ctx) (l : Nat) : Except Err (Option Node) :=
  match (c.info l).cond with
  | none => .ok none
  | some .lt => do return some (← c.simpSub (c.info l).rhs (.const 1))
  | some .gt => do return some (← c.simpAdd (c.info l).rhs (.const 1))
  | some .le => do return some (← c.simp (c.info l).rhs)
  | some .ge => do return some (← c.simp (c.info l).rhs)

/-- loop_dependence_helpers.cpp:121-133 `IsWithinBounds`. -/
def isWithinBounds (value one two : Int) : Bool :=
  if one < two then decide (value ≥ one ∧ value ≤ two)
  else if one > two then decide (value ≥ two ∧ value ≤ one)
  else decide (value = one)

/-- loop_dependence_helpers.cpp:135-195 `IsProvablyOutsideOfLoopBounds`. -/
def Ctx.outsideBounds (c : Ctx) (l : Nat) (distance coefficient : Node) : Except Err Bool :=
  match asConst coefficient with
  | none => .ok false
  | some k => do
    let lower ← c.lowerBound l
    let upper ← c.upperBound l
    match lower, upper with
    | some lo, some up =>
      let bounds ← (if k ≥ 0 then c.simpSub up lo else c.simpSub lo up)
      match asConst (← c.simpSub distance bounds) with
      | some v => return decide (v > 0)
      | none => return false
    | _, _ => return false

/-- loop_dependence_helpers.cpp:394-404 `GetConstantTerm`; `none`: a null pointer. -/
def Ctx.constantTerm (c : Ctx) (l : Nat) (offset : Node) : Except Err (Option Node) := do
  match ← c.lowerBound l with
  | none => return none
  | some lo => return some (← c.simpSub offset lo)

/-- loop_dependence_helpers.cpp:280-297 `GetFirstTripInductionNode`. -/
def Ctx.firstTrip (c : Ctx) (l : Nat) : Option Node := (c.info l).init.map .const

/-- loop_dependence_helpers.cpp:299-315 `GetFinalTripInductionNode`; a trip count which is not
known is a null pointer, which `CreateSubtraction` uses. -/
def Ctx.finalTrip (c : Ctx) (l : Nat) (coefficient : Node) : Except Err (Option Node) :=
  match c.firstTrip l with
  | none => .ok none
  | some first => do
    let trips ← deref (c.info l).trips
    let count ← c.simpSub (.const trips) (.const 1)
    return some (← c.simpAdd first (← sc (createMultiply count coefficient)))

/-! ## Distance entries -/

/-- loop_dependence.h:57-64. -/
inductive Info where
  | unknown | direction | distance | peel | irrelevant | point
deriving DecidableEq, Repr

/-- loop_dependence.h:65-74; `LE`, `NE` and `GE` are never used. -/
inductive Dir where
  | none | lt | eq | gt | all
deriving DecidableEq, Repr

/-- loop_dependence.h:55-125 `DistanceEntry`. -/
structure Entry where
  info : Info := .unknown
  dir : Dir := .all
  distance : Int := 0
  peelFirst : Bool := false
  peelLast : Bool := false
  pointX : Int := 0
  pointY : Int := 0
deriving DecidableEq, Repr

/-- Writing through the pointer to an entry, which may be null. -/
def upd (e : Option Entry) (f : Entry → Entry) : Except Err (Option Entry) :=
  match e with
  | some x => .ok (some (f x))
  | none => .error .null

def Entry.direct (d : Dir) (e : Entry) : Entry := { e with dir := d }
def Entry.independent (e : Entry) : Entry := { e with info := .direction, dir := .none }
def Entry.atDistance (dir : Dir) (d : Int) (e : Entry) : Entry :=
  { e with info := .distance, dir := dir, distance := d }
/-- loop_dependence.cpp:590 assigns `Directions::ALL`, which is 7, to the distance. -/
def Entry.distanceSeven (e : Entry) : Entry := { e with distance := 7 }
def Entry.peelsFirst (e : Entry) : Entry := { e with info := .peel, peelFirst := true }
def Entry.peelsLast (e : Entry) : Entry := { e with info := .peel, peelLast := true }
def Entry.ignored (e : Entry) : Entry := { e with info := .irrelevant }

/-- The verdict of a test, `true`: independent, and the entry of its loop afterwards. -/
abbrev Verdict := Bool × Option Entry

/-! ## One induction variable -/

/-- loop_dependence.cpp:393-408 `ZIVTest`. -/
def zivTest (s d : Node) : Bool := decide (s ≠ d)

/-- loop_dependence.cpp:664-693 `SymbolicStrongSIVTest`. -/
def Ctx.symbolicStrong (c : Ctx) (s d coef : Node) (e : Option Entry) : Except Err Verdict := do
  let delta ← c.simpSub s d
  let l ← deref (loopForPair s d)
  if ← c.outsideBounds l delta coef then return (true, ← upd e Entry.independent)
  else return (false, ← upd e (Entry.direct .all))

/-- loop_dependence.cpp:627-655: what is recorded for a distance. -/
def strongDir (distance : Int) : Entry → Entry :=
  if distance > 0 then Entry.atDistance .lt distance
  else if distance = 0 then Entry.atDistance .eq 0
  else Entry.atDistance .gt distance

/-- loop_dependence.cpp:594-655: a distance is known. -/
def Ctx.strongBounds (c : Ctx) (l : Nat) (distance : Int) (e : Option Entry) :
    Except Err Verdict := do
  let lower ← c.lowerBound l
  let upper ← c.upperBound l
  match lower, upper with
  | some lo, some up =>
    match asConst (← c.simpSub up lo) with
    | some b =>
      if (← abs64 distance) > (← abs64 b) then
        return (true, ← upd e (Entry.atDistance .none distance))
      else return (false, ← upd e (strongDir distance))
    | none => return (false, ← upd e (strongDir distance))
  | _, _ => return (false, ← upd e (strongDir distance))

/-- loop_dependence.cpp:510-662 `StrongSIVTest`. -/
def Ctx.strongSIV (c : Ctx) (s d coef : Node) (e : Option Entry) : Except Err Verdict :=
  if hasUnknown s || hasUnknown d then c.symbolicStrong s d coef e
  else match asRecur s, asRecur d with
    | some (_, so, _), some (_, dof, _) => do
      let l ← deref (loopForPair s d)
      match ← c.constantTerm l so, ← c.constantTerm l dof with
      | some st, some dt =>
        let delta ← c.simpSub dt st
        match asConst delta, asConst coef with
        | some v, some k =>
          if (← mod64 v k) ≠ 0 then return (true, ← upd e Entry.independent)
          else c.strongBounds l (← div64 v k) e
        | _, _ => return (false, ← upd e Entry.distanceSeven)
      | _, _ => return (false, e)
    | _, _ => do return (false, ← upd e (Entry.direct .all))

/-- loop_dependence.cpp:781-845 and 935-999: is it the first or the last iteration? `isSource`:
which of the two functions this is; in the first of them line 817 asks whether the first trip is a
constant before it folds the last one. -/
def Ctx.weakZeroPeel (c : Ctx) (isSource : Bool) (l : Nat) (fixed offset coef : Node)
    (e : Option Entry) : Except Err Verdict := do
  let term ← c.constantTerm l offset
  let first ← c.simpAdd (← deref (c.firstTrip l)) (← deref term)
  if fixed = first then return (false, ← upd e Entry.peelsFirst)
  else
    let last ← c.simpAdd (← deref (← c.finalTrip l coef)) (← deref term)
    if isSource && (asConst first).isSome && (asConst last).isNone then .error .null
    else if fixed = last then return (false, ← upd e Entry.peelsLast)
    else return (false, ← upd e (Entry.direct .all))

/-- loop_dependence.cpp:695-846 `WeakZeroSourceSIVTest` and 848-1000 `WeakZeroDestinationSIVTest`,
which differ in the roles of source and destination and in what `weakZeroPeel` says: `fixed` is the
subscript without induction variable, the other one is the recurrent expression with loop, offset
and coefficient. -/
def Ctx.weakZero (c : Ctx) (isSource : Bool) (fixed : Node) (l : Nat) (offset coef : Node)
    (e : Option Entry) : Except Err Verdict := do
  let term ← deref (← c.constantTerm l offset)
  let delta ← c.simpSub fixed term
  let verdict ← (match asConst delta, asConst coef with
    | some v, some k => do
      if (← mod64 v k) ≠ 0 then return none
      else return some (← div64 v k)
    | _, _ => .ok (some 0))
  match verdict with
  | none => return (true, ← upd e Entry.independent)
  | some distance =>
    let lo ← deref (← c.lowerBound l)
    let up ← deref (← c.upperBound l)
    match asConst lo, asConst up with
    | some lv, some uv =>
      if !isWithinBounds (← abs64 distance) lv uv then
        return (true, ← upd e (Entry.atDistance .none distance))
      else c.weakZeroPeel isSource l fixed offset coef e
    | _, _ => c.weakZeroPeel isSource l fixed offset coef e

/-- The conversion of a non-negative integer to `float`: 24 significant bits, to nearest, ties to
even. The floats which come out are integers. -/
def toFloatNat (n : Nat) : Nat :=
  if n < 2 ^ 24 then n
  else
    let s := n.log2 - 23
    let q := n / 2 ^ s
    let r := n % 2 ^ s
    if r > 2 ^ (s - 1) || (r == 2 ^ (s - 1) && q % 2 == 1) then (q + 1) * 2 ^ s else q * 2 ^ s

/-- The conversion of an `int64_t` to `float`. -/
def toFloat (v : Int) : Int :=
  if v < 0 then -(toFloatNat v.natAbs : Int) else toFloatNat v.natAbs

/-- loop_dependence.cpp:1035-1038: is the quotient of the two floats one half? The quotient of two
floats is rounded to one half only if it is one half: their significands are below `2 ^ 24`, so
that another quotient differs from it by a factor of at least `1 + 2 ^ -24`. -/
def ratioIsHalf (a b : Int) : Bool := decide (2 * toFloat a = toFloat b)

/-- loop_dependence.cpp:1002-1071 `WeakCrossingSIVTest`. -/
def Ctx.weakCrossing (c : Ctx) (s d coef : Node) (e : Option Entry) : Except Err Verdict :=
  match asRecur s, asRecur d with
  | some (_, so, _), some (_, dof, _) => do
    match asConst (← c.simpSub dof so), asConst coef with
    | some v, some k =>
      let m ← mod64 v (← i64 (2 * k))
      if m ≠ 0 && !ratioIsHalf m (2 * k) then return (true, ← upd e Entry.independent)
      else if (← div64 v (2 * k)) = 0 then return (false, ← upd e (Entry.atDistance .eq 0))
      else return (false, ← upd e (Entry.direct .all))
    | _, _ => return (false, ← upd e (Entry.direct .all))
  | _, _ => do return (false, ← upd e (Entry.direct .all))

/-- What `SIVTest` does with the answer of a test: where it is independence, the entry says so. -/
def settle (v : Verdict) : Except Err Verdict :=
  if v.1 then do return (true, ← upd v.2 Entry.independent) else .ok v

/-- loop_dependence.cpp:410-508 `SIVTest`. -/
def Ctx.sivTest (c : Ctx) (s d : Node) (e : Option Entry) : Except Err Verdict := do
  -- 429-441
  let v1 ← (if countLoops s = 0 then do
      let (_, off, coef) ← deref (asRecur d)
      let l ← deref (loopForPair s d)
      settle (← c.weakZero true s l off coef e)
    else .ok (false, e))
  if v1.1 then return v1
  -- 445-457
  let v2 ← (if countLoops d = 0 then do
      let (_, off, coef) ← deref (asRecur s)
      let l ← deref (loopForPair s d)
      settle (← c.weakZero false d l off coef v1.2)
    else .ok v1)
  if v2.1 then return v2
  match collect s, collect d with
  | [.recur _ _ sk], [.recur _ _ dk] =>
    -- 475-487
    let v3 ← (if sk = dk then do settle (← c.strongSIV s d sk v2.2) else .ok v2)
    if v3.1 then return v3
    -- 491-505
    let nk ← sc (createNegation dk)
    if sk = nk then settle (← c.weakCrossing s d sk v3.2) else return v3
  | _, _ => return v2

/-! ## Several induction variables -/

/-- loop_dependence.cpp:35-66 `GreatestCommonDivisor`. Both arguments are absolute values; `fuel`
bounds the recursion. -/
def steinFuel : Nat → Nat → Nat → Nat
  | 0, a, _ => a
  | fuel + 1, a, b =>
    if a = b then a
    else if a = 0 then b
    else if b = 0 then a
    else if a % 2 = 0 && b % 2 = 0 then 2 * steinFuel fuel (a / 2) (b / 2)
    else if a % 2 = 0 && b % 2 = 1 then steinFuel fuel (a / 2) b
    else if a % 2 = 1 && b % 2 = 0 then steinFuel fuel a (b / 2)
    else if a > b then steinFuel fuel ((a - b) / 2) b
    else steinFuel fuel ((b - a) / 2) a

/-- Each step makes the sum smaller (`stein_gcd`). -/
def stein (a b : Nat) : Nat := steinFuel (a + b + 1) a b

mutual
/-- loop_dependence.cpp:71-84 `IsInCorrectFormForGCDTest`. -/
def gcdForm : Node → Bool
  | .const _ => true
  | .recur .. => true
  | .add cs => gcdFormList cs
  | _ => false
def gcdFormList : List Node → Bool
  | [] => true
  | c :: cs => gcdForm c && gcdFormList cs
end

mutual
/-- loop_dependence.cpp:88-102 `GetAllTopLevelRecurrences`. -/
def topRecurrences : Node → List (Nat × Node × Node)
  | .recur l off coef => [(l, off, coef)]
  | .add cs => topRecurrencesList cs
  | _ => []
def topRecurrencesList : List Node → List (Nat × Node × Node)
  | [] => []
  | c :: cs => topRecurrences c ++ topRecurrencesList cs
end

mutual
/-- loop_dependence.cpp:106-120 `GetAllTopLevelConstants`. -/
def topConstants : Node → List Int
  | .const v => [v]
  | .add cs => topConstantsList cs
  | _ => []
def topConstantsList : List Node → List Int
  | [] => []
  | c :: cs => topConstants c ++ topConstantsList cs
end

/-- loop_dependence.cpp:122-131 `AreOffsetsAndCoefficientsConstant`, which asks for the offset
twice. -/
def offsetsConstant (rs : List (Nat × Node × Node)) : Bool :=
  rs.all fun r => (asConst r.2.1).isSome

/-- loop_dependence.cpp:135-148 `CalculateConstantTerm`, the loop over the recurrences. -/
def sumOffsets : Int → List (Nat × Node × Node) → Except Err Int
  | acc, [] => .ok acc
  | acc, r :: rs => do sumOffsets (← i64 (acc + (← deref (asConst r.2.1)))) rs

/-- loop_dependence.cpp:135-148 `CalculateConstantTerm`, the loop over the constants. -/
def sumConstants : Int → List Int → Except Err Int
  | acc, [] => .ok acc
  | acc, v :: vs => do sumConstants (← i64 (acc + v)) vs

/-- loop_dependence.cpp:150-160 `CalculateGCDFromCoefficients`. -/
def gcdCoefficients : Nat → List (Nat × Node × Node) → Except Err Nat
  | g, [] => .ok g
  | g, r :: rs => do
    let k ← abs64 (← deref (asConst r.2.2))
    gcdCoefficients (stein g k.natAbs) rs

/-- loop_dependence.cpp:1075-1112 `GCDMIVTest`. -/
def gcdTest (s d : Node) : Except Err Bool :=
  if !gcdForm s || !gcdForm d then .ok false
  else if !offsetsConstant (topRecurrences s) || !offsetsConstant (topRecurrences d) then .ok false
  else do
    let sv ← sumConstants (← sumOffsets 0 (topRecurrences s)) (topConstants s)
    let dv ← sumConstants (← sumOffsets 0 (topRecurrences d)) (topConstants d)
    let delta ← abs64 (← i64 (sv - dv))
    let g ← gcdCoefficients 0 (topRecurrences s)
    let g ← gcdCoefficients g (topRecurrences d)
    return decide ((← mod64 delta g) ≠ 0)

/-! ## Coupled subscripts -/

/-- loop_dependence.h:168-270: the constraints. -/
inductive Constraint where
  | none
  | empty
  | distance (d : Node) (loop : Nat)
  | line (a b c : Node) (loop : Nat)
  | point (x y : Node) (loop : Nat)
deriving DecidableEq, Repr

/-- loop_dependence.cpp:164-178 `NormalizeAndCompareFractions`. -/
def sameFraction (n0 d0 n1 d1 : Int) : Except Err Bool := do
  let g0 := stein (← abs64 n0).natAbs (← abs64 d0).natAbs
  let g1 := stein (← abs64 n1).natAbs (← abs64 d1).natAbs
  let a0 ← div64 n0 g0
  let b0 ← div64 d0 g0
  let a1 ← div64 n1 g1
  let b1 ← div64 d1 g1
  return a0 == a1 && b0 == b1

/-- loop_dependence.cpp:1224-1247, 1357-1367: a distance `d` is the line `x - y = -d`. -/
def Ctx.asLine (c : Ctx) : Constraint → Except Err (Option (Node × Node × Node))
  | .distance d _ => do return some (.const 1, .const (-1), ← c.simp (← sc (createNegation d)))
  | .line a b c' _ => .ok (some (a, b, c'))
  | _ => .ok none

/-- `GetLoop` of the constraint, for the constraints which have one. -/
def Constraint.loop : Constraint → Nat
  | .distance _ l => l
  | .line _ _ _ l => l
  | .point _ _ l => l
  | _ => 0

/-- loop_dependence.cpp:1285-1334: where two lines meet. -/
def meet (a0 b0 c0 a1 b1 c1 lo up : Int) (loop : Nat) : Except Err Constraint := do
  let u ← i64 ((← i64 (b1 * c0)) - (← i64 (b0 * c1)))
  let dn ← i64 ((← i64 (b1 * a0)) - (← i64 (b0 * a1)))
  let x ← div64 u dn
  let (y, arg, b) ← (if b1 ≠ 0 then do
      let arg ← i64 (c1 - (← i64 (a1 * x)))
      return (← div64 arg b1, arg, b1)
    else if b0 ≠ 0 then do
      let arg ← i64 (c0 - (← i64 (a0 * x)))
      return (← div64 arg b0, arg, b0)
    else .ok (0, 0, 0))
  if (← mod64 u dn) = 0 then
    if (← mod64 arg b) = 0 then
      if lo ≤ x && x ≤ up && lo ≤ y && y ≤ up then
        return .point (.const x) (.const y) loop
      else return .empty
    else return .empty
  else return .empty

/-- loop_dependence.cpp:1249-1341: two lines with constant coefficients; `c0` is the first of the
constraints. -/
def meetLines (k0 : Constraint) (a0 b0 c0 a1 b1 c1 : Int) (lower upper : Option Node) :
    Except Err Constraint := do
  if ← sameFraction a0 b0 a1 b1 then
    if b0 = 0 && b1 = 0 then
      if ← sameFraction c0 a0 c1 a1 then return k0 else return .empty
    else if ← sameFraction c0 b0 c1 b1 then return k0
    else return .empty
  else
    let up ← deref upper
    match asConst up with
    | none => return .none
    | some uv =>
      let lo ← deref lower
      match asConst lo with
      | none => return .none
      | some lv => meet a0 b0 c0 a1 b1 c1 lv uv k0.loop

/-- loop_dependence.cpp:1343-1397: a line and a point. -/
def meetPoint (p : Constraint) (x y a b c : Node) : Except Err Constraint :=
  match asConst a, asConst b, asConst c, asConst x, asConst y with
  | some a, some b, some c, some x, some y => do
    let left ← i64 ((← i64 (a * x)) + (← i64 (b * y)))
    if left = c then return p else return .empty
  | _, _, _, _, _ => .ok .none

/-- loop_dependence.cpp:1184-1400 `IntersectConstraints`; `none`: the null pointer of line 1399,
returned when one of the constraints is empty. -/
def Ctx.intersect (c : Ctx) (k0 k1 : Constraint) (lower upper : Option Node) :
    Except Err (Option Constraint) :=
  match k0, k1 with
  | .none, k1 => .ok (some k1)
  | k0, .none => .ok (some k0)
  | .distance d0 l0, .distance d1 _ =>
    .ok (some (if d0 = d1 then .distance d0 l0 else .empty))
  | .point x0 y0 l0, .point x1 y1 _ =>
    .ok (some (if x0 = x1 && y0 = y1 then .point x0 y0 l0 else .empty))
  | .point x y l, k1 => do
    match ← c.asLine k1 with
    | some (a, b, c') => return some (← meetPoint (.point x y l) x y a b c')
    | none => return none
  | k0, .point x y l => do
    match ← c.asLine k0 with
    | some (a, b, c') => return some (← meetPoint (.point x y l) x y a b c')
    | none => return none
  | k0, k1 => do
    match ← c.asLine k0, ← c.asLine k1 with
    | some (a0, b0, c0), some (a1, b1, c1) =>
      match asConst a0, asConst b0, asConst c0, asConst a1, asConst b1, asConst c1 with
      | some a0, some b0, some c0, some a1, some b1, some c1 =>
        return some (← meetLines k0 a0 b0 c0 a1 b1 c1 lower upper)
      | _, _, _, _, _, _ => return some .none
    | _, _ => return none

/-- scalar_analysis.cpp:467-476 `GetRecurrentTerm` and 396-406
`GetCoefficientFromRecurrentTerm`: the first recurrent expression of the loop. -/
def recurrentTerm (n : Node) (l : Nat) : Option (Node × Node) :=
  match (collect n).find? (fun r => loopOf r == some l) with
  | some (.recur _ off coef) => some (off, coef)
  | _ => none

/-- scalar_analysis.cpp:396-406 `GetCoefficientFromRecurrentTerm`. -/
def coefficientOf (n : Node) (l : Nat) : Node :=
  match recurrentTerm n l with
  | some (_, coef) => coef
  | none => .const 0

/-- scalar_analysis.cpp:446-455: a recurrent expression of the loop is replaced by its offset. -/
def dropRecurrent (l : Nat) : Node → Node
  | .recur l' off coef => if l' = l then off else .recur l' off coef
  | n => n

/-- scalar_analysis.cpp:433-463 `BuildGraphWithoutRecurrentTerm`. -/
def Ctx.withoutRecurrent (c : Ctx) (n : Node) (l : Nat) : Except Err Node :=
  match n with
  | .recur .. => .ok (dropRecurrent l n)
  | _ => c.simp (.add (addAll c.order ((n.children c.order).map (dropRecurrent l)) []))

/-- scalar_analysis.cpp:408-429 `UpdateChildNode`. -/
def Ctx.updateChild (c : Ctx) (parent old new : Node) : Except Err Node :=
  match parent with
  | .add cs => c.simp (.add (addAll c.order (cs.map fun x => if x = old then new else x) []))
  | _ => .ok parent

/-- loop_dependence.cpp:1404-1461 `PropagateConstraints`, one constraint; those which are not
distances change nothing. -/
def Ctx.propagateOne (c : Ctx) (p : Node × Node) : Constraint → Except Err (Node × Node)
  | .distance d l => do
    let (first, second) := p
    let coef := coefficientOf first l
    let coef' := coefficientOf second l
    let rhs ← sc (createMultiply coef d)
    let zeroed ← c.withoutRecurrent first l
    let first ← c.simpSub zeroed rhs
    let child ← c.simpSub coef' coef
    match recurrentTerm second l with
    | none => return (first, second)
    | some (off, coef') =>
      return (first, ← c.updateChild second (.recur l off coef') (.recur l off child))
  | _ => .ok p

def Ctx.propagateAll (c : Ctx) : Node × Node → List Constraint → Except Err (Node × Node)
  | p, [] => .ok p
  | p, k :: ks => do c.propagateAll (← c.propagateOne p k) ks

/-- loop_dependence.cpp:1404-1461 `PropagateConstraints`. -/
def Ctx.propagate (c : Ctx) (p : Node × Node) (ks : List Constraint) :
    Except Err (Node × Node) := do
  let (first, second) ← c.propagateAll p ks
  return (first, ← c.simp second)

/-- loop_dependence_helpers.cpp:482-532 `Constraint::operator==`. Lines 488-491 take the distance
of the wrong one of a distance and a line, a null pointer. -/
def sameConstraint : Constraint → Constraint → Except Err Bool
  | .distance _ _, .line _ _ _ _ => .error .null
  | .line _ _ _ _, .distance _ _ => .error .null
  | .none, .none => .ok true
  | .empty, .empty => .ok true
  | .distance d _, .distance d' _ => .ok (decide (d = d'))
  | .line a b c _, .line a' b' c' _ => .ok (decide (a = a' ∧ b = b' ∧ c = c'))
  | .point x y _, .point x' y' _ => .ok (decide (x = x' ∧ y = y'))
  | _, _ => .ok false

/-- `std::equal`, loop_dependence.cpp:1588-1591. -/
def sameConstraints : List Constraint → List Constraint → Except Err Bool
  | k :: ks, k' :: ks' => do
    if ← sameConstraint k k' then sameConstraints ks ks' else return false
  | _, _ => .ok true

/-- loop_dependence.cpp:1525-1563: the line of a pair of subscripts. -/
def Ctx.lineOf (c : Ctx) (s d : Node) (l : Nat) : Except Err Constraint := do
  let (a, k) ← (if countLoops d ≠ 0 then do
      let (_, off, coef) ← deref (asRecur d)
      return (coef, ← sc (createNegation off))
    else do return (.const 0, ← sc (createNegation d)))
  let (b, k) ← (if countLoops s ≠ 0 then do
      let (_, off, coef) ← deref (asRecur s)
      return (← sc (createNegation coef), ← sc (createAdd c.order k off))
    else do return (.const 0, ← sc (createAdd c.order k s)))
  return .line (← c.simp a) (← c.simp b) (← c.simp k) l

/-- loop_dependence.cpp:1507-1564: the constraint of a pair of subscripts, with the index of its
loop. -/
def Ctx.constraintOf (c : Ctx) (s d : Node) (e : Option Entry) :
    Except Err (Constraint × Nat) := do
  let l ← deref (loopForPair s d)
  let i := c.loops.idxOf l
  match e with
  | none => .error .range
  | some e =>
    if e.info = .distance then return (.distance (.const e.distance) l, i)
    else return (← c.lineOf s d l, i)

/-- The entry of a loop in a distance vector, loop_dependence_helpers.cpp:226-249
`GetDistanceEntryForLoop` and `GetDistanceEntryForSubscriptPair`. -/
def Ctx.entryFor (c : Ctx) (v : List Entry) (s d : Node) : Option Entry :=
  match loopForPair s d with
  | none => none
  | some l => if l ∈ c.loops then v[c.loops.idxOf l]? else none

/-- Storing the entry back. -/
def Ctx.storeFor (c : Ctx) (v : List Entry) (s d : Node) (e : Option Entry) : List Entry :=
  match loopForPair s d, e with
  | some l, some e => if l ∈ c.loops then v.set (c.loops.idxOf l) e else v
  | _, _ => v

/-- loop_dependence.cpp:1487-1502: the SIV test on all pairs, each with a new distance vector. -/
def Ctx.testAll (c : Ctx) : List (Node × Node) → Except Err (List Verdict)
  | [] => .ok []
  | (s, d) :: ps => do
    let v ← c.sivTest s d (c.entryFor (List.replicate c.loops.length {}) s d)
    return v :: (← c.testAll ps)

/-- loop_dependence.cpp:1504-1564: a constraint for each pair. -/
def Ctx.constraintsOf (c : Ctx) : List ((Node × Node) × Verdict) →
    Except Err (List (Constraint × Nat))
  | [] => .ok []
  | ((s, d), v) :: ps => do
    let k ← c.constraintOf s d v.2
    return k :: (← c.constraintsOf ps)

/-- loop_dependence.cpp:1566-1574: the constraints are intersected one after the other. -/
def Ctx.intersectAll (c : Ctx) : List (Option Constraint) → List (Constraint × Nat) →
    Except Err (List (Option Constraint))
  | cur, [] => .ok cur
  | cur, (k, i) :: ks => do
    let l ← (match c.loops[i]? with | some l => .ok l | none => .error .range)
    let old ← (match cur[i]? with | some old => deref old | none => .error .range)
    let new ← c.intersect old k (← c.lowerBound l) (← c.upperBound l)
    c.intersectAll (cur.set i new) ks

/-- loop_dependence.cpp:1576-1584: is one of them empty? A null pointer before the first one that
is empty is used. -/
def findEmpty : List (Option Constraint) → Except Err Bool
  | [] => .ok false
  | none :: _ => .error .null
  | some .empty :: _ => .ok true
  | some _ :: ks => findEmpty ks

/-- loop_dependence.cpp:1596-1604: constraints are propagated into the other subscripts. -/
def Ctx.propagateInto (c : Ctx) (ks : List Constraint) : List (Node × Node) →
    Except Err (List (Node × Node))
  | [] => .ok []
  | p :: ps => do
    let q ← c.propagate p ks
    return q :: (← c.propagateInto ks ps)

/-- loop_dependence.cpp:1606-1616: `none` is independence, otherwise the subscripts with one
induction variable and the others. -/
def sortOut : List (Node × Node) → Option (List (Node × Node) × List (Node × Node))
  | [] => some ([], [])
  | (s, d) :: ps =>
    if isZIV s d && zivTest s d then none
    else match sortOut ps with
      | none => none
      | some (siv, miv) =>
        if isSIV s d then some ((s, d) :: siv, miv) else some (siv, (s, d) :: miv)

/-- The state after the loop of the delta test: `none` is independence, otherwise the constraints,
the loops which appeared and the subscripts which are left. -/
abbrev DeltaOut := Option (List Constraint × List Nat × List (Node × Node))

/-- loop_dependence.cpp:1486-1623: the loop of `DeltaTest`. `appeared` are the indices in
`loop_appeared`. -/
def Ctx.deltaLoop (c : Ctx) : Nat → List Constraint → List Nat → List (Node × Node) →
    List (Node × Node) → Except Err DeltaOut
  | 0, _, _, _, _ => .error .fuel
  | fuel + 1, ks, appeared, siv, miv =>
    match siv with
    | [] => .ok (some (ks, appeared, miv))
    | _ :: _ => do
      let results ← c.testAll siv
      if results.any (·.1) then return none
      else
        let new ← c.constraintsOf (siv.zip results)
        let met ← c.intersectAll (ks.map some) new
        if ← findEmpty met then return none
        else
          let ks' := met.filterMap id
          let appeared := appeared ++ new.map (·.2)
          if ← sameConstraints ks ks' then c.deltaLoop fuel ks' appeared [] []
          else
            match sortOut (← c.propagateInto ks' miv) with
            | none => return none
            | some (siv', miv') => c.deltaLoop fuel ks' appeared siv' miv'

/-- loop_dependence.cpp:1632-1657: what a constraint says about an entry. -/
def recordConstraint (k : Constraint) (e : Entry) : Entry :=
  match k with
  | .distance (.const d) _ =>
    Entry.atDistance (if d = 0 then .eq else if d < 0 then .gt else .lt) d e
  | .point (.const x) (.const y) _ => { info := .point, pointX := x, pointY := y }
  | _ => e

/-- loop_dependence.cpp:1625-1660: the distance vector from the constraints. -/
def recordAll (appeared : List Nat) : Nat → List Constraint → List Entry → List Entry
  | _, [], v => v
  | _, _, [] => []
  | i, k :: ks, e :: v =>
    (if i ∈ appeared then recordConstraint k e else e) :: recordAll appeared (i + 1) ks v

/-- loop_dependence.cpp:1662-1670: the GCD test on all pairs which are left. -/
def gcdAll : List (Node × Node) → Except Err Bool
  | [] => .ok false
  | (s, d) :: ps => do
    let r ← gcdTest s d
    let rest ← gcdAll ps
    return r || rest

/-- loop_dependence.cpp:1463-1671 `DeltaTest`. -/
def Ctx.deltaTest (c : Ctx) (ps : List (Node × Node)) (v : List Entry) :
    Except Err (Bool × List Entry) := do
  let siv := ps.filter fun p => isSIV p.1 p.2
  let miv := ps.filter fun p => !isSIV p.1 p.2
  match ← c.deltaLoop (miv.length + 2) (List.replicate c.loops.length .none) [] siv miv with
  | none => return (true, v)
  | some (ks, appeared, miv) =>
    let v := recordAll appeared 0 ks v
    return (← gcdAll miv, v)

/-! ## The whole analysis -/

/-- loop_dependence_helpers.cpp:452-474 `IsSupportedLoop`. -/
def Ctx.isSupported (c : Ctx) (l : Nat) : Except Err Bool :=
  match (c.info l).phis with
  | [n] => do
    match ← c.simp n with
    | .recur _ _ (.const k) => return k == 1 || k == -1
    | _ => return false
  | _ => .ok false

/-- Does the loop appear in the group? loop_dependence.cpp:1136-1155. -/
def Ctx.groupHas (c : Ctx) (l : Nat) (g : List (Nat × Nat)) : Bool :=
  g.any fun p => (pairLoops (c.node p.1) (c.node p.2)).contains l

/-- loop_dependence.cpp:1129-1169, for one loop: all groups in which it appears are added to the
first of them. -/
def Ctx.mergeFor (c : Ctx) (l : Nat) (gs : List (List (Nat × Nat))) : List (List (Nat × Nat)) :=
  match gs with
  | [] => []
  | g :: rest =>
    if c.groupHas l g then
      toSet g (rest.filter (c.groupHas l)).flatten :: rest.filter fun g => !c.groupHas l g
    else g :: c.mergeFor l rest

def Ctx.mergeAll (c : Ctx) : List Nat → List (List (Nat × Nat)) → List (List (Nat × Nat))
  | [], gs => gs
  | l :: ls, gs => c.mergeAll ls (c.mergeFor l gs)

/-- loop_dependence.cpp:1116-1182 `PartitionSubscripts`. Groups which were emptied are removed at
once and not at the end; an empty group has no loop. -/
def Ctx.partition (c : Ctx) (src dst : List Nat) : Except Err (List (List (Nat × Nat))) :=
  if dst.length < src.length then .error .range
  else .ok (c.mergeAll c.loops ((src.zip dst).map fun p => [p]))

/-- loop_dependence.cpp:272-348, one subscript pair on its own. -/
def Ctx.testPair (c : Ctx) (p : Nat × Nat) (v : List Entry) : Except Err (Bool × List Entry) := do
  let s ← c.simp (c.node p.1)
  let d ← c.simp (c.node p.2)
  let keep : Except Err (Bool × List Entry) :=
    .ok (false, match c.entryFor v s d with
      | some e => c.storeFor v s d (some (Entry.direct .all e))
      | none => v)
  let supported ← (match loopForPair s d with
    | some l => c.isSupported l
    | none => .ok true)
  if !supported then keep
  else if s.isCant || d.isCant then keep
  else if isZIV s d then return (zivTest s d, v)
  else if isSIV s d then
    let (r, e) ← c.sivTest s d (c.entryFor v s d)
    return (r, c.storeFor v s d e)
  else
    if ← gcdTest s d then
      -- 338-342
      let _ ← (if (pairLoops s d).all (· ∈ c.loops) then .ok () else .error Err.null)
      return (true, v)
    else return (false, v)

/-- loop_dependence.cpp:272-348: the subscript pairs on their own. -/
def Ctx.testPairs (c : Ctx) : List (List (Nat × Nat)) → List Entry →
    Except Err (Bool × List Entry)
  | [], v => .ok (false, v)
  | g :: gs, v => do
    match g with
    | p :: _ =>
      let (r, v) ← c.testPair p v
      if r then return (true, v) else c.testPairs gs v
    | [] => c.testPairs gs v

/-- The expressions of a group of subscript pairs, loop_dependence.cpp:351-364. -/
def Ctx.simpPairs (c : Ctx) : List (Nat × Nat) → Except Err (List (Node × Node))
  | [] => .ok []
  | p :: ps => do
    let s ← c.simp (c.node p.1)
    let d ← c.simp (c.node p.2)
    return (s, d) :: (← c.simpPairs ps)

/-- loop_dependence.cpp:350-381: the coupled subscripts. Whether the loops are supported is
computed and not used (366-376). -/
def Ctx.testGroups (c : Ctx) : List (List (Nat × Nat)) → List Entry →
    Except Err (Bool × List Entry)
  | [], v => .ok (false, v)
  | g :: gs, v => do
    let ps ← c.simpPairs g
    let (r, v) ← c.deltaTest ps v
    if r then return (true, v) else c.testGroups gs v

/-- loop_dependence_helpers.cpp:381-392 `GetSubscripts`; a variable has none (an initializer is not
looked at). -/
def Ctx.subscripts (c : Ctx) (p : Nat) : List Nat :=
  match c.ptr p with
  | .chain _ subs => subs
  | .inBounds _ subs => subs
  | .var => []

/-- loop_dependence_helpers.cpp:416-450 `MarkUnsusedDistanceEntriesAsIrrelevant`. -/
def markUnused (used : List Nat) : List Nat → List Entry → List Entry
  | l :: ls, e :: v => (if l ∈ used then e else Entry.ignored e) :: markUnused used ls v
  | _, v => v

/-- The simplified subscripts, loop_dependence_helpers.cpp:423-443. -/
def Ctx.simpList (c : Ctx) : List Nat → Except Err (List Node)
  | [] => .ok []
  | i :: is => do
    let n ← c.simp (c.node i)
    return n :: (← c.simpList is)

/-- All entries as they are at first. -/
def freshAll (v : List Entry) : List Entry := v.map fun _ => {}

/-- loop_dependence.cpp:182-391 `GetDependence` of two accesses, given their pointers. The distance
vector must have an entry for each loop (`range` otherwise). -/
def Ctx.getDependence (c : Ctx) (o : Sched) (src dst : Nat) (v : List Entry) :
    Except Err (Bool × List Entry) :=
  if v.length < c.loops.length then .error .range
  else do
    let used ← c.simpList (c.subscripts src ++ c.subscripts dst)
    let v := markUnused (loopsOf (used.flatMap collect)) c.loops v
    match c.ptr src, c.ptr dst with
    | .chain b1 s1, .chain b2 s2 =>
      match c.ptr b1, c.ptr b2 with
      | .chain .., _ => return (false, freshAll v)
      | _, .chain .. => return (false, freshAll v)
      | _, _ =>
        if b1 ≠ b2 then return (true, v)
        else
          let gs ← c.partition s1 s2
          let gs := gs.map o.pairs
          let (r, v) ← c.testPairs (o.groups (gs.filter fun g => g.length == 1)) v
          if r then return (true, v)
          else c.testGroups (o.groups (gs.filter fun g => g.length != 1)) v
    | .chain b1 _, _ => if dst ≠ b1 then return (true, v) else return (false, freshAll v)
    | _, .chain b2 _ => if src ≠ b2 then return (true, v) else return (false, freshAll v)
    | _, _ => if src ≠ dst then return (true, v) else return (false, freshAll v)

end Verif.LoopDep
