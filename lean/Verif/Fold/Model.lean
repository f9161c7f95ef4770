import Verif.BitUtils.Model

/-!
# Folding an integer or boolean instruction to a constant

Models `InstructionFolder::FoldInstructionToConstant` (source/opt/fold.cpp:604-688), the scalar
evaluator it falls back on (fold.cpp:45-179, 207-232, 234-543) and the integer and boolean entries
of the constant folding rules it tries first (source/opt/const_folding_rules.cpp), together with
the accessors of `analysis::Constant` they use (source/opt/constants.h, constants.cpp).

Outcomes.  Everything returns `Option`; `none` is a failed `assert` or undefined behaviour of the
host program.  A folding rule returns `some none` for "does not apply" (`nullptr`) and
`some (some c)` for the constant `c`.

Not modelled: floating point constants and rules, matrices, composites other than vectors, ids of
the created constants (the constant manager hash-conses, constants.cpp RegisterConstant, so
pointer comparison of constants is equality of `Const`), id overflow, cooperative matrices.
-/

namespace Verif.Fold

/-- Scalar types of interest: `OpTypeBool` and `OpTypeInt width signedness`. -/
inductive STy where
  | bool
  | int (w : Nat) (signed : Bool)
deriving DecidableEq, Repr

/-- Types of interest: scalars and vectors of scalars. -/
inductive Ty where
  | scalar (t : STy)
  | vec (n : Nat) (t : STy)
deriving DecidableEq, Repr

/-- Scalar constants: `IntConstant` (its type and `words()`), `BoolConstant`, `NullConstant`
(source/opt/constants.h:147-236, 270-298, 452-475). -/
inductive SConst where
  | int (w : Nat) (signed : Bool) (words : List (BitVec 32))
  | bool (b : Bool)
  | null (t : STy)
deriving DecidableEq, Repr

/-- Constants: scalars, `VectorConstant` with its components, and a `NullConstant` of vector
type. -/
inductive Const where
  | scalar (c : SConst)
  | vec (t : STy) (cs : List SConst)
  | nullVec (n : Nat) (t : STy)
deriving DecidableEq, Repr

/-- The opcodes of `InstructionFolder::IsFoldableOpcode` (fold.cpp:545-592) and the integer
GLSL.std.450 instructions that have a constant folding rule (const_folding_rules.cpp:2195-2222). -/
inductive Op where
  | iAdd | iSub | iMul | uDiv | sDiv | uMod | sRem | sMod
  | shiftRightLogical | shiftRightArithmetic | shiftLeftLogical
  | bitwiseOr | bitwiseAnd | bitwiseXor
  | logicalEqual | logicalNotEqual | logicalOr | logicalAnd
  | iEqual | iNotEqual | uLessThan | sLessThan | uGreaterThan | sGreaterThan
  | uLessThanEqual | sLessThanEqual | uGreaterThanEqual | sGreaterThanEqual
  | sNegate | not | logicalNot | uConvert | sConvert | select
  | sMin | uMin | sMax | uMax | sClamp | uClamp
deriving DecidableEq, Repr

/-- An in-operand: its id, the type of that id, the constant `FindDeclaredConstant(id_map(id))`
(if any), and the operand of its definition when that is an `OpSNegate`. -/
structure Operand where
  id : Nat
  ty : Ty
  const : Option Const
  negOf : Option Nat
deriving DecidableEq, Repr

/-- The instruction being folded.  For the extended instructions `args` are the arguments after
the instruction-set id.  `fpFold` is `IsFloatingPointFoldingAllowed()`. -/
structure Instr where
  op : Op
  ty : Ty
  args : List Operand
  fpFold : Bool
deriving DecidableEq, Repr

/-- `static_cast<uint32_t>(bool)`. -/
def ofBool (b : Bool) : BitVec 32 := if b then 1#32 else 0#32

/-- `static_cast<bool>(uint32_t)`. -/
def toBool (a : BitVec 32) : Bool := a != 0#32

/-- `std::numeric_limits<int32_t>::min()`. -/
def int32Min : BitVec 32 := 0x80000000#32
/-- `INT32_MAX`. -/
def int32Max : BitVec 32 := 0x7FFFFFFF#32
/-- `UINT32_MAX`. -/
def uint32Max : BitVec 32 := 0xFFFFFFFF#32
/-- The smallest `int64_t`. -/
def int64Min : BitVec 64 := 0x8000000000000000#64

/-! ## `fold.cpp` scalar evaluation -/

/-- `-x` on `int32_t`: undefined for the minimum. -/
def hostNeg32 (x : BitVec 32) : Option (BitVec 32) := if x = int32Min then none else some (-x)

/-- `>>` on `int32_t`/`uint32_t`, `<<` on `uint32_t`: undefined for amounts of 32 and more. -/
def hostShift (f : BitVec 32 → Nat → BitVec 32) (a b : BitVec 32) : Option (BitVec 32) :=
  if b.toNat < 32 then some (f a b.toNat) else none

/-- `InstructionFolder::UnaryOperate` (fold.cpp:45-69). -/
def unaryOperate (op : Op) (a : BitVec 32) : Option (BitVec 32) :=
  match op with
  | .sNegate => if a = int32Min then some a else hostNeg32 a
  | .not => some (~~~ a)
  | .logicalNot => some (ofBool (!toBool a))
  | .uConvert => some a
  | .sConvert => some a
  | _ => none

/-- `InstructionFolder::BinaryOperate` (fold.cpp:71-150). -/
def binaryOperate (op : Op) (a b : BitVec 32) : Option (BitVec 32) :=
  match op with
  | .shiftRightLogical => if 32 ≤ b.toNat then some 0#32 else hostShift BitVec.ushiftRight a b
  | .shiftRightArithmetic =>
      if 32 < b.toNat then some 0#32
      else if b.toNat = 32 then (if 0 ≤ a.toInt then some 0#32 else some (-1#32))
      else hostShift BitVec.sshiftRight a b
  | .shiftLeftLogical => if 32 ≤ b.toNat then some 0#32 else hostShift BitVec.shiftLeft a b
  | .bitwiseOr => some (a ||| b)
  | .bitwiseAnd => some (a &&& b)
  | .bitwiseXor => some (a ^^^ b)
  | .logicalEqual => some (ofBool (toBool a == toBool b))
  | .logicalNotEqual => some (ofBool (toBool a != toBool b))
  | .logicalOr => some (ofBool (toBool a || toBool b))
  | .logicalAnd => some (ofBool (toBool a && toBool b))
  | .iEqual => some (ofBool (a == b))
  | .iNotEqual => some (ofBool (a != b))
  | .uLessThan => some (ofBool (BitVec.ult a b))
  | .sLessThan => some (ofBool (BitVec.slt a b))
  | .uGreaterThan => some (ofBool (BitVec.ult b a))
  | .sGreaterThan => some (ofBool (BitVec.slt b a))
  | .uLessThanEqual => some (ofBool (BitVec.ule a b))
  | .sLessThanEqual => some (ofBool (BitVec.sle a b))
  | .uGreaterThanEqual => some (ofBool (BitVec.ule b a))
  | .sGreaterThanEqual => some (ofBool (BitVec.sle b a))
  | _ => none

/-- `InstructionFolder::TernaryOperate` (fold.cpp:152-162). -/
def ternaryOperate (op : Op) (a b c : BitVec 32) : Option (BitVec 32) :=
  match op with
  | .select => some (if toBool a then b else c)
  | _ => none

/-- `InstructionFolder::OperateWords` (fold.cpp:164-179). -/
def operateWords (op : Op) : List (BitVec 32) → Option (BitVec 32)
  | [a] => unaryOperate op a
  | [a, b] => binaryOperate op a b
  | [a, b, c] => ternaryOperate op a b c
  | _ => none

/-- `ScalarConstant::words()`; for a boolean the word is its value
(constants.h:154, 274-276). `none` for a null constant, which is not a `ScalarConstant`. -/
def SConst.words? : SConst → Option (List (BitVec 32))
  | .int _ _ ws => some ws
  | .bool b => some [ofBool b]
  | .null _ => none

/-- The raw word `FoldScalars` reads from an operand (fold.cpp:213-229). -/
def scalarWord : Const → Option (BitVec 32)
  | .scalar c =>
      match c.words? with
      | some [x] => some x
      | some _ => none
      | none => some 0#32
  | .vec .. => none
  | .nullVec .. => some 0#32

/-- `InstructionFolder::FoldScalars` (fold.cpp:207-232). -/
def foldScalars (op : Op) (cs : List Const) : Option (BitVec 32) := do
  operateWords op (← cs.mapM scalarWord)

/-- The raw word `FoldVectors` reads from dimension `d` of an operand (fold.cpp:505-535).
A component of a `VectorConstant` that is a null constant runs into the `assert(false)`: the test
at 521 looks at the vector, not at the component. -/
def vectorWord (d : Nat) : Const → Option (BitVec 32)
  | .vec _ cs =>
      match cs[d]? with
      | some c =>
          match c.words? with
          | some [x] => some x
          | _ => none
      | none => none
  | .nullVec _ _ => some 0#32
  | .scalar (.null _) => some 0#32
  | .scalar _ => none

/-- `InstructionFolder::FoldVectors` (fold.cpp:495-543). -/
def foldVectors (op : Op) (dims : Nat) (cs : List Const) : Option (List (BitVec 32)) :=
  (List.range dims).mapM fun d => do operateWords op (← cs.mapM (vectorWord d))

/-! ## `fold.cpp` rules with a missing constant -/

/-- `constants[i]` of `FoldBinaryIntegerOpToConstant` (fold.cpp:240-252): the word of an
`IntConstant`.  The single-word assertion of `GetU32BitValue` is applied here to every opcode; the
function is only reached for 32-bit operands. -/
def intWord (o : Operand) : Option (Option (BitVec 32)) :=
  match o.const with
  | some (.scalar (.int _ _ [x])) => some (some x)
  | some (.scalar (.int _ _ _)) => none
  | _ => some none

/-- `InstructionFolder::FoldBinaryIntegerOpToConstant` (fold.cpp:234-428); `none` is `false`. -/
def foldBinaryInteger (op : Op) (c0 c1 : Option (BitVec 32)) : Option (BitVec 32) :=
  match op with
  | .iMul => if c0 = some 0#32 ∨ c1 = some 0#32 then some 0#32 else none
  | .uDiv => if c0 = some 0#32 ∨ c1 = some 0#32 then some 0#32 else none
  | .sDiv => if c0 = some 0#32 ∨ c1 = some 0#32 then some 0#32 else none
  | .sRem => if c0 = some 0#32 ∨ c1 = some 0#32 then some 0#32 else none
  | .sMod => if c0 = some 0#32 ∨ c1 = some 0#32 then some 0#32 else none
  | .uMod => if c0 = some 0#32 ∨ c1 = some 0#32 then some 0#32 else none
  | .shiftRightLogical =>
      match c1 with
      | some s => if 32 ≤ s.toNat then some 0#32 else none
      | none => none
  | .shiftLeftLogical =>
      match c1 with
      | some s => if 32 ≤ s.toNat then some 0#32 else none
      | none => none
  | .bitwiseOr => if c0 = some uint32Max ∨ c1 = some uint32Max then some uint32Max else none
  | .bitwiseAnd => if c0 = some 0#32 ∨ c1 = some 0#32 then some 0#32 else none
  | .uLessThan => if c0 = some uint32Max ∨ c1 = some 0#32 then some (ofBool false) else none
  | .sLessThan => if c0 = some int32Max ∨ c1 = some int32Min then some (ofBool false) else none
  | .uGreaterThan => if c0 = some 0#32 ∨ c1 = some uint32Max then some (ofBool false) else none
  | .sGreaterThan => if c0 = some int32Min ∨ c1 = some int32Max then some (ofBool false) else none
  | .uLessThanEqual => if c0 = some 0#32 ∨ c1 = some uint32Max then some (ofBool true) else none
  | .sLessThanEqual => if c0 = some int32Min ∨ c1 = some int32Max then some (ofBool true) else none
  | .uGreaterThanEqual => if c0 = some uint32Max ∨ c1 = some 0#32 then some (ofBool true) else none
  | .sGreaterThanEqual =>
      if c0 = some int32Max ∨ c1 = some int32Min then some (ofBool true) else none
  | _ => none

/-- `constants[i]` of `FoldBinaryBooleanOpToConstant` (fold.cpp:436-447). -/
def boolWord (o : Operand) : Option Bool :=
  match o.const with
  | some (.scalar (.bool b)) => some b
  | _ => none

/-- `InstructionFolder::FoldBinaryBooleanOpToConstant` (fold.cpp:430-478). -/
def foldBinaryBoolean (op : Op) (c0 c1 : Option Bool) : Option (BitVec 32) :=
  match op with
  | .logicalOr => if c0 = some true ∨ c1 = some true then some (ofBool true) else none
  | .logicalAnd => if c0 = some false ∨ c1 = some false then some (ofBool false) else none
  | _ => none

/-- `InstructionFolder::FoldIntegerOpToConstant` (fold.cpp:480-493). -/
def foldIntegerOp (op : Op) : List Operand → Option (Option (BitVec 32))
  | [x, y] => do
      let c0 ← intWord x
      let c1 ← intWord y
      match foldBinaryInteger op c0 c1 with
      | some r => some (some r)
      | none => some (foldBinaryBoolean op (boolWord x) (boolWord y))
  | _ => some none

/-! ## Accessors of integer constants -/

/-- `(uint64_t(words[1]) << 32) | words[0]` (constants.h:178-184, 212-218). -/
def joinWords (lo hi : BitVec 32) : BitVec 64 := (hi.setWidth 64 <<< 32) ||| lo.setWidth 64

/-- `Constant::GetZeroExtendedValue` (constants.cpp:105-122). -/
def zeroExtended : SConst → Option (BitVec 64)
  | .int w _ ws =>
      if w ≤ 32 then
        match ws with
        | [x] => some (x.setWidth 64)
        | _ => none
      else if w ≤ 64 then
        match ws with
        | [lo, hi] => some (joinWords lo hi)
        | _ => none
      else none
  | .null (.int w _) => if w ≤ 64 then some 0#64 else none
  | _ => none

/-- `Constant::GetSignExtendedValue` (constants.cpp:124-142). -/
def signExtended : SConst → Option (BitVec 64)
  | .int w _ ws =>
      if w ≤ 32 then
        match ws with
        | [x] => some (x.signExtend 64)
        | _ => none
      else if w ≤ 64 then
        match ws with
        | [lo, hi] => some (joinWords lo hi)
        | _ => none
      else none
  | .null (.int w _) => if w ≤ 64 then some 0#64 else none
  | _ => none

/-- `ConstantManager::GenerateIntegerConstant` (constants.cpp:694-714), with
`utils::SignExtendValue`/`ZeroExtendValue` from the `BitUtils` model. -/
def generateInt (w : Nat) (signed : Bool) (r : BitVec 64) : Option SConst :=
  if w = 64 then some (.int w signed [r.setWidth 32, (r >>> 32).setWidth 32])
  else if w ≤ 32 then do
    let e ← if signed then BitUtils.signExtendValue r w else BitUtils.zeroExtendValue r w
    some (.int w signed [e.setWidth 32])
  else none

/-- `ConstantManager::GetIntConst` (constants.cpp:658-681). -/
def getIntConst (val : BitVec 64) (w : Nat) (signed : Bool) : Option SConst :=
  if w = 0 ∨ 64 < w then none
  else
    let v := if signed then BitVec.sshiftRight (val <<< (64 - w)) (64 - w)
             else if w < 64 then val &&& ((1#64 <<< w) - 1#64) else val
    if w ≤ 32 then some (.int w signed [v.setWidth 32])
    else some (.int w signed [v.setWidth 32, (v >>> 32).setWidth 32])

/-! ## Scalar constant folding rules -/

/-- The lambdas given to `FoldBinaryIntegerOperation` (const_folding_rules.cpp:2141-2188).
`int64_t` division and remainder are undefined when the quotient overflows. -/
def hostSDiv (a b : BitVec 64) : Option (BitVec 64) :=
  if b = 0#64 then none else if a = int64Min ∧ b = -1#64 then none else some (BitVec.sdiv a b)
def hostSRem (a b : BitVec 64) : Option (BitVec 64) :=
  if b = 0#64 then none else if a = int64Min ∧ b = -1#64 then none else some (BitVec.srem a b)

/-- The fix-up of `OpSMod` (const_folding_rules.cpp:2183-2185). -/
def smodFix (b result : BitVec 64) : BitVec 64 :=
  if (decide (b.toInt < 0)) != (decide (result.toInt < 0)) then result + b else result

def intOp (op : Op) (a b : BitVec 64) : Option (BitVec 64) :=
  match op with
  | .iAdd => some (a + b)
  | .iSub => some (a - b)
  | .iMul => some (a * b)
  | .uDiv => if b ≠ 0#64 then some (a / b) else some 0#64
  | .uMod => if b ≠ 0#64 then some (a % b) else some 0#64
  | .sDiv => if b ≠ 0#64 then hostSDiv a b else some 0#64
  | .sRem => if b ≠ 0#64 then hostSRem a b else some 0#64
  | .sMod => if b = 0#64 then some 0#64 else (hostSRem a b).map (smodFix b)
  | _ => none

/-- The `signedness` template argument of each rule (const_folding_rules.cpp:2141-2188). -/
def Op.signedRule : Op → Bool
  | .sDiv => true
  | .sRem => true
  | .sMod => true
  | _ => false

/-- The width of an integer constant's type; `none` when `AsInteger()` is null. -/
def SConst.width? : SConst → Option Nat
  | .int w _ _ => some w
  | .null (.int w _) => some w
  | _ => none

/-- Reading an operand (const_folding_rules.cpp:2015-2018). -/
def readInt (signed : Bool) (c : SConst) : Option (BitVec 64) :=
  if signed then signExtended c else zeroExtended c

/-- `FoldBinaryIntegerOperation<signedness>(op)` (const_folding_rules.cpp:1997-2025). -/
def binaryInt (op : Op) (t : STy) (a b : SConst) : Option (Option SConst) :=
  match t with
  | .bool => none
  | .int w s =>
      if a.width? = some w ∧ b.width? = some w then do
        let ia ← readInt op.signedRule a
        let ib ← readInt op.signedRule b
        let r ← intOp op ia ib
        some (some (← generateInt w s r))
      else none

/-- `NegateIntConst` (const_folding_rules.cpp:94-107); negating the smallest `int64_t` is
undefined. -/
def negateInt (t : STy) (a : SConst) : Option (Option SConst) :=
  match t with
  | .bool => none
  | .int w s =>
      match a with
      | .null _ => some (some a)
      | _ => do
          let v ← signExtended a
          if v = int64Min then none
          some (some (← getIntConst (-v) w s))

/-- `FoldScalarSConvert` (const_folding_rules.cpp:2028-2038). -/
def sConvert (t : STy) (a : SConst) : Option (Option SConst) :=
  match t with
  | .bool => none
  | .int w s => do
      let v ← signExtended a
      some (some (← generateInt w s v))

/-- `FoldScalarUConvert` (const_folding_rules.cpp:2041-2056). -/
def uConvert (t : STy) (a : SConst) : Option (Option SConst) :=
  match t with
  | .bool => none
  | .int w s => do
      let v ← zeroExtended a
      let ow ← a.width?
      let v' ← BitUtils.clearHighBits v (64 - ow)
      some (some (← generateInt w s v'))

/-- `AsIntConstant() != nullptr ? GetS32BitValue()/GetU32BitValue() : 0` for a null or one-word
integer constant (const_folding_rules.cpp:1607-1632). -/
def word32 : SConst → Option (BitVec 32)
  | .int _ _ [x] => some x
  | .int _ _ _ => none
  | .null (.int _ _) => some 0#32
  | _ => none

/-- `GetS64()`/`GetU64()` (constants.cpp:70-103): the type must be 64 bits wide. -/
def word64 : SConst → Option (BitVec 64)
  | .int w _ [lo, hi] => if w = 64 then some (joinWords lo hi) else none
  | .null (.int w _) => if w = 64 then some 0#64 else none
  | _ => none

/-- `va < vb` as the result type's signedness directs. -/
def lessThan {n : Nat} (signed : Bool) (a b : BitVec n) : Bool :=
  if signed then BitVec.slt a b else BitVec.ult a b

/-- `FoldMin` on integers (const_folding_rules.cpp:1601-1654). -/
def foldMin (t : STy) (a b : SConst) : Option (Option SConst) :=
  match t with
  | .bool => some none
  | .int w s =>
      if w ≤ 32 then do
        let va ← word32 a
        let vb ← word32 b
        some (some (if lessThan s va vb then a else b))
      else if w = 64 then do
        let va ← word64 a
        let vb ← word64 b
        some (some (if lessThan s va vb then a else b))
      else some none

/-- `FoldMax` on integers (const_folding_rules.cpp:1656-1709). -/
def foldMax (t : STy) (a b : SConst) : Option (Option SConst) :=
  match t with
  | .bool => some none
  | .int w s =>
      if w ≤ 32 then do
        let va ← word32 a
        let vb ← word32 b
        some (some (if lessThan s vb va then a else b))
      else if w = 64 then do
        let va ← word64 a
        let vb ← word64 b
        some (some (if lessThan s vb va then a else b))
      else some none

/-! ## Lifting to vectors, and the rules on whole instructions -/

/-- `Constant::GetVectorComponents` (constants.cpp:716-737). -/
def vectorComponents : Const → Option (List SConst)
  | .vec _ cs => some cs
  | .nullVec n t => some (List.replicate n (.null t))
  | .scalar _ => none

/-- The component loop of `FoldUnaryOp` (const_folding_rules.cpp:699-706): stops at the first
component that does not fold. -/
def compsUnary (rule : SConst → Option (Option SConst)) : List SConst → Option (Option (List SConst))
  | [] => some (some [])
  | a :: as =>
      match rule a with
      | none => none
      | some none => some none
      | some (some r) =>
          match compsUnary rule as with
          | none => none
          | some none => some none
          | some (some rs) => some (some (r :: rs))

/-- The component loop of `FoldBinaryOp`/`FoldFPBinaryOp` (const_folding_rules.cpp:759-766,
821-828); the two lists must have the same length. -/
def compsBinary (rule : SConst → SConst → Option (Option SConst)) :
    List SConst → List SConst → Option (Option (List SConst))
  | [], [] => some (some [])
  | a :: as, b :: bs =>
      match rule a b with
      | none => none
      | some none => some none
      | some (some r) =>
          match compsBinary rule as bs with
          | none => none
          | some none => some none
          | some (some rs) => some (some (r :: rs))
  | _, _ => none

/-- The declared type of a scalar constant (`Constant::type()`). -/
def SConst.ty : SConst → STy
  | .int w s _ => .int w s
  | .bool _ => .bool
  | .null t => t

/-- `ConstantManager::GetConstant(vector_type, ids)` (constants.cpp:242-277): the components, found
again by their ids, must all have the type of the first one; that this is the element type of the
vector is not checked. -/
def makeVec (t : STy) (cs : List SConst) : Option Const :=
  match cs with
  | [] => none
  | c :: _ => if cs.all (fun d => d.ty == c.ty) then some (.vec t cs) else none

/-- `FoldUnaryOp` (const_folding_rules.cpp:677-718). -/
def foldUnaryOp (rule : STy → SConst → Option (Option SConst)) (i : Instr) :
    Option (Option Const) :=
  match i.args with
  | [x] =>
      match x.const with
      | none => some none
      | some a =>
          match i.ty with
          | .vec _ t => do
              let as ← vectorComponents a
              let r ← compsUnary (rule t) as
              some (r.bind (makeVec t))
          | .scalar t =>
              match a with
              | .scalar a => do
                  let r ← rule t a
                  some (r.map Const.scalar)
              | _ => none
  | _ => none

/-- The common part of `FoldBinaryOp` (const_folding_rules.cpp:727-775) and the static
`FoldFPBinaryOp` (800-842) on two known constants. -/
def applyBinary (rule : STy → SConst → SConst → Option (Option SConst)) (ty : Ty) (a b : Const) :
    Option (Option Const) :=
  match ty with
  | .vec _ t => do
      let as ← vectorComponents a
      let bs ← vectorComponents b
      let r ← compsBinary (rule t) as bs
      some (r.bind (makeVec t))
  | .scalar t =>
      match a, b with
      | .scalar a, .scalar b => do
          let r ← rule t a b
          some (r.map Const.scalar)
      | _, _ => none

/-- `FoldBinaryOp` (const_folding_rules.cpp:727-775). -/
def foldBinaryOp (rule : STy → SConst → SConst → Option (Option SConst)) (i : Instr) :
    Option (Option Const) :=
  match i.args with
  | [x, y] =>
      match x.const, y.const with
      | some a, some b => applyBinary rule i.ty a b
      | _, _ => some none
  | _ => none

/-- `FoldFPBinaryOp` on an instruction (const_folding_rules.cpp:849-862). -/
def foldFPBinaryOp (rule : STy → SConst → SConst → Option (Option SConst)) (i : Instr) :
    Option (Option Const) :=
  if !i.fpFold then some none else foldBinaryOp rule i

/-- `FoldRedundantSub` (const_folding_rules.cpp:994-1017), integer case. -/
def foldRedundantSub (i : Instr) : Option (Option Const) :=
  match i.args with
  | [x, y] =>
      if x.id = y.id then
        match i.ty with
        | .scalar t => some (some (.scalar (.null t)))
        | .vec n t => some (some (.nullVec n t))
      else some none
  | _ => none

/-- `GetConstantUniformValue` for an integer (const_folding_rules.cpp:1079-1117). -/
def uniformValue (ty : Ty) (v : BitVec 64) : Option (Option Const) :=
  match ty with
  | .scalar (.int w s) => do some (some (.scalar (← generateInt w s v)))
  | .vec n (.int w s) => do
      some (makeVec (.int w s) (List.replicate n (← generateInt w s v)))
  | _ => some none

/-- `FoldRedundantDiv` (const_folding_rules.cpp:1124-1178), integer cases. -/
def foldRedundantDiv (i : Instr) : Option (Option Const) :=
  match i.args with
  | [x, y] =>
      if x.const.isSome || y.const.isSome then some none
      else if x.id = y.id then uniformValue i.ty 1#64
      else if i.op = .uDiv then some none
      else if x.negOf = some y.id then uniformValue i.ty (-1#64)
      else if y.negOf = some x.id then uniformValue i.ty (-1#64)
      else some none
  | _ => none

/-- `ScalarConstant::IsZero` / `NullConstant::IsZero` (constants.h:158-167, 468). -/
def SConst.isZero : SConst → Bool
  | .int _ _ ws => ws.all (· == 0#32)
  | .bool b => !b
  | .null _ => true

/-- `Constant::IsZero` (constants.h:131, 158-167, 304-312, 468). -/
def Const.isZero : Const → Bool
  | .scalar c => c.isZero
  | .vec _ cs => cs.all SConst.isZero
  | .nullVec _ _ => true

/-- `FoldInvariantSelect` (const_folding_rules.cpp:1259-1277). -/
def foldInvariantSelect (i : Instr) : Option (Option Const) :=
  match i.args with
  | [_, y, z] =>
      match y.const, z.const with
      | some b, some c =>
          if b = c then some (some b)
          else if b.isZero && c.isZero then some (some b)
          else some none
      | _, _ => some none
  | _ => none

/-- `FoldClamp1` (const_folding_rules.cpp:1773-1795). -/
def foldClamp1 (i : Instr) : Option (Option Const) :=
  match i.args with
  | [x, lo, hi] =>
      match x.const, lo.const, hi.const with
      | some a, some b, some c =>
          match applyBinary foldMax i.ty a b with
          | some (some t) => applyBinary foldMin i.ty t c
          | r => r
      | _, _, _ => some none
  | _ => none

/-- `FoldClamp2` (const_folding_rules.cpp:1798-1823). -/
def foldClamp2 (i : Instr) : Option (Option Const) :=
  match i.args with
  | [x, lo, _] =>
      match x.const, lo.const with
      | some a, some b => do
          let t ← applyBinary foldMax i.ty a b
          if t = some b then some (some b) else some none
      | _, _ => some none
  | _ => none

/-- `FoldClamp3` (const_folding_rules.cpp:1826-1851). -/
def foldClamp3 (i : Instr) : Option (Option Const) :=
  match i.args with
  | [x, _, hi] =>
      match x.const, hi.const with
      | some a, some c => do
          let t ← applyBinary foldMin i.ty a c
          if t = some c then some (some c) else some none
      | _, _ => some none
  | _ => none

/-- The rules of an opcode in the order they are tried
(`ConstantFoldingRules::AddFoldingRules`, const_folding_rules.cpp:2059-2222). -/
def constRules : Op → List (Instr → Option (Option Const))
  | .sConvert => [foldUnaryOp sConvert]
  | .uConvert => [foldUnaryOp uConvert]
  | .select => [foldInvariantSelect]
  | .sNegate => [foldUnaryOp negateInt]
  | .iAdd => [foldBinaryOp (binaryInt .iAdd)]
  | .iSub => [foldBinaryOp (binaryInt .iSub), foldRedundantSub]
  | .iMul => [foldBinaryOp (binaryInt .iMul)]
  | .uDiv => [foldBinaryOp (binaryInt .uDiv), foldRedundantDiv]
  | .sDiv => [foldBinaryOp (binaryInt .sDiv), foldRedundantDiv]
  | .uMod => [foldBinaryOp (binaryInt .uMod)]
  | .sRem => [foldBinaryOp (binaryInt .sRem)]
  | .sMod => [foldBinaryOp (binaryInt .sMod)]
  | .sMin => [foldFPBinaryOp foldMin]
  | .uMin => [foldFPBinaryOp foldMin]
  | .sMax => [foldFPBinaryOp foldMax]
  | .uMax => [foldFPBinaryOp foldMax]
  | .uClamp => [foldClamp1, foldClamp2, foldClamp3]
  | .sClamp => [foldClamp1, foldClamp2, foldClamp3]
  | _ => []

/-- The loop over the rules (fold.cpp:630-647): the first constant wins. -/
def tryRules (i : Instr) : List (Instr → Option (Option Const)) → Option (Option Const)
  | [] => some none
  | r :: rs =>
      match r i with
      | none => none
      | some (some c) => some (some c)
      | some none => tryRules i rs

/-! ## Dispatch -/

/-- `InstructionFolder::IsFoldableScalarType` (fold.cpp:696-707). -/
def STy.foldable : STy → Bool
  | .bool => true
  | .int w _ => w == 32

/-- A foldable scalar type. -/
def Ty.foldableScalar : Ty → Bool
  | .scalar t => t.foldable
  | .vec _ _ => false

/-- `InstructionFolder::IsFoldableVectorType` (fold.cpp:709-721). -/
def Ty.foldableVector : Ty → Bool
  | .scalar _ => false
  | .vec _ t => t.foldable

/-- `InstructionFolder::IsFoldableOpcode` (fold.cpp:545-592): everything but `OpExtInst`. -/
def Op.foldable : Op → Bool
  | .sMin => false
  | .uMin => false
  | .sMax => false
  | .uMax => false
  | .sClamp => false
  | .uClamp => false
  | _ => true

/-- `Instruction::IsFoldableByFoldScalar` (instruction.cpp:786-806). -/
def Instr.byScalar (i : Instr) : Bool :=
  i.op.foldable && i.ty.foldableScalar && i.args.all (fun o => o.ty.foldableScalar)

/-- `Instruction::IsFoldableByFoldVector` (instruction.cpp:808-828). -/
def Instr.byVector (i : Instr) : Bool :=
  i.op.foldable && i.ty.foldableVector && i.args.all (fun o => o.ty.foldableVector)

/-- `ConstantManager::GetConstant` on a one-word scalar (constants.cpp:242-252); a boolean is
`word != 0`. -/
def mkScalar (t : STy) (v : BitVec 32) : SConst :=
  match t with
  | .bool => .bool (toBool v)
  | .int w s => .int w s [v]

/-- All constants are present (`!missing_constants`, fold.cpp:613-627). -/
def allConsts (args : List Operand) : Option (List Const) := args.mapM (fun o => o.const)

/-- The constant under another scalar type: same words. -/
def SConst.retype (t : STy) (c : SConst) : SConst :=
  match c, t with
  | .int _ _ ws, .int w s => .int w s ws
  | .null _, t => .null t
  | c, _ => c

/-- `GetDefiningInstruction(folded_const, inst->type_id())` (fold.cpp:636-637,
constants.cpp:174-190, 205-240): the constant is declared with the type of the instruction, from
the same words or component ids. -/
def emit (ty : Ty) (c : Const) : Const :=
  match c, ty with
  | .scalar c, .scalar t => .scalar (c.retype t)
  | .vec _ cs, .vec _ t => .vec t cs
  | .nullVec _ _, .vec n t => .nullVec n t
  | c, _ => c

/-- The evaluation by words after no rule applied (fold.cpp:649-685). -/
def foldByWords (i : Instr) : Option (Option Const) :=
  match i.ty with
  | .scalar t =>
      if i.byScalar then
        match allConsts i.args with
        | some cs => do
            let v ← foldScalars i.op cs
            some (some (.scalar (mkScalar t v)))
        | none => do
            let r ← foldIntegerOp i.op i.args
            some (r.map fun v => .scalar (mkScalar t v))
      else some none
  | .vec n t =>
      if i.byVector then
        match allConsts i.args with
        | some cs => do
            let vs ← foldVectors i.op n cs
            some (some (.vec t (vs.map (mkScalar t))))
        | none => some none
      else some none

/-- `InstructionFolder::FoldInstructionToConstant` (fold.cpp:604-688).  The early return at
608-611 is subsumed: with no rule and no foldable type nothing below applies. -/
def foldToConstant (i : Instr) : Option (Option Const) :=
  match tryRules i (constRules i.op) with
  | none => none
  | some (some c) => some (some (emit i.ty c))
  | some none => foldByWords i

end Verif.Fold
