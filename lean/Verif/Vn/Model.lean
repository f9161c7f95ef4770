/-
# Model: value numbering and the elimination of redundant instructions

Models `ValueNumberTable` (`/repo/source/opt/value_number_table.{h,cpp}`),
`LocalRedundancyEliminationPass` and `RedundancyEliminationPass`
(`local_redundancy_elimination.cpp`, `redundancy_elimination.cpp`).

Simplifications, for the whole file:
* module-level instructions (types, constants, module variables) are the instructions of
  a first block that runs before the function; the blocks of other functions are blocks
  that no path reaches;
* the kinds of id operands and of literals are not told apart (an opcode fixes them);
* ids are below 2^31 and value numbers do not overflow;
* `IsReadOnlyVariable` of the base address (value_number_table.cpp:61-78), the type of
  the result being an image or sampler, and the tables for extended instructions are
  given with the program;
* decorations of an id are one value, compared for equality
  (`HaveTheSameDecorations`, decoration_manager.cpp:191-242).
-/

namespace Verif.Vn

abbrev Id := Nat
abbrev Block := Nat

/-- An operand: an id or literal words (`Operand`, instruction.h:70-106). -/
inductive Opnd where
  | id (x : Id)
  | lit (ws : List Nat)
deriving DecidableEq, Repr

/-- An instruction; `result` is 0 for instructions without a result.  `readOnly`: the
memory it reads is read-only as far as `IsReadOnlyVariable` can tell; `opaque`: its type
is an image, a sampler or both. -/
structure Inst where
  op : String
  ty : Id
  result : Id
  ops : List Opnd
  readOnly : Bool := false
  isOpaque : Bool := false
deriving DecidableEq, Repr

/-- A function with the instructions around it.  `order` lists all blocks as they stand
in the module. -/
structure Prog where
  entry : Block
  order : List Block
  insts : Block → List Inst
  preds : Block → List Block
  deco : Id → List Nat
  /-- combinators among the extended instructions (ir_context.h:533-536) -/
  extComb : Inst → Bool
  /-- `IsCommonDebugInstr` (instruction.h:603) -/
  debug : Inst → Bool
  /-- the module declares the capability `Shader` -/
  shader : Bool

/-- `AddCombinatorsForCapability` (ir_context.cpp:598-769). -/
def combinators : List String := [
  "OpNop", "OpUndef", "OpConstant", "OpConstantTrue", "OpConstantFalse", "OpConstantComposite",
  "OpConstantSampler", "OpConstantNull", "OpTypeVoid", "OpTypeBool", "OpTypeInt", "OpTypeFloat",
  "OpTypeVector", "OpTypeMatrix", "OpTypeImage", "OpTypeSampler", "OpTypeSampledImage",
  "OpTypeAccelerationStructureNV", "OpTypeAccelerationStructureKHR", "OpTypeRayQueryKHR",
  "OpTypeHitObjectNV", "OpTypeHitObjectEXT", "OpTypeArray", "OpTypeRuntimeArray",
  "OpTypeNodePayloadArrayAMDX", "OpTypeStruct", "OpTypeOpaque", "OpTypePointer",
  "OpTypeUntypedPointerKHR", "OpTypeFunction", "OpTypeEvent", "OpTypeDeviceEvent",
  "OpTypeReserveId", "OpTypeQueue", "OpTypePipe", "OpTypeForwardPointer", "OpVariable",
  "OpUntypedVariableKHR", "OpImageTexelPointer", "OpLoad", "OpAccessChain",
  "OpInBoundsAccessChain", "OpUntypedAccessChainKHR", "OpArrayLength", "OpVectorExtractDynamic",
  "OpVectorInsertDynamic", "OpVectorShuffle", "OpCompositeConstruct", "OpCompositeExtract",
  "OpCompositeInsert", "OpCopyLogical", "OpCopyObject", "OpTranspose", "OpSampledImage",
  "OpImageSampleImplicitLod", "OpImageSampleExplicitLod", "OpImageSampleDrefImplicitLod",
  "OpImageSampleDrefExplicitLod", "OpImageSampleProjImplicitLod", "OpImageSampleProjExplicitLod",
  "OpImageSampleProjDrefImplicitLod", "OpImageSampleProjDrefExplicitLod", "OpImageFetch",
  "OpImageGather", "OpImageDrefGather", "OpImageRead", "OpImage", "OpImageQueryFormat",
  "OpImageQueryOrder", "OpImageQuerySizeLod", "OpImageQuerySize", "OpImageQueryLevels",
  "OpImageQuerySamples", "OpConvertFToU", "OpConvertFToS", "OpConvertSToF", "OpConvertUToF",
  "OpUConvert", "OpSConvert", "OpFConvert", "OpQuantizeToF16", "OpBitcast", "OpSNegate",
  "OpFNegate", "OpIAdd", "OpFAdd", "OpISub", "OpFSub", "OpIMul", "OpFMul", "OpUDiv", "OpSDiv",
  "OpFDiv", "OpUMod", "OpSRem", "OpSMod", "OpFRem", "OpFMod", "OpVectorTimesScalar",
  "OpMatrixTimesScalar", "OpVectorTimesMatrix", "OpMatrixTimesVector", "OpMatrixTimesMatrix",
  "OpOuterProduct", "OpDot", "OpIAddCarry", "OpISubBorrow", "OpUMulExtended", "OpSMulExtended",
  "OpAny", "OpAll", "OpIsNan", "OpIsInf", "OpLogicalEqual", "OpLogicalNotEqual", "OpLogicalOr",
  "OpLogicalAnd", "OpLogicalNot", "OpSelect", "OpIEqual", "OpINotEqual", "OpUGreaterThan",
  "OpSGreaterThan", "OpUGreaterThanEqual", "OpSGreaterThanEqual", "OpULessThan", "OpSLessThan",
  "OpULessThanEqual", "OpSLessThanEqual", "OpFOrdEqual", "OpFUnordEqual", "OpFOrdNotEqual",
  "OpFUnordNotEqual", "OpFOrdLessThan", "OpFUnordLessThan", "OpFOrdGreaterThan",
  "OpFUnordGreaterThan", "OpFOrdLessThanEqual", "OpFUnordLessThanEqual", "OpFOrdGreaterThanEqual",
  "OpFUnordGreaterThanEqual", "OpShiftRightLogical", "OpShiftRightArithmetic",
  "OpShiftLeftLogical", "OpBitwiseOr", "OpBitwiseXor", "OpBitwiseAnd", "OpNot", "OpBitFieldInsert",
  "OpBitFieldSExtract", "OpBitFieldUExtract", "OpBitReverse", "OpBitCount", "OpPhi",
  "OpImageSparseSampleImplicitLod", "OpImageSparseSampleExplicitLod",
  "OpImageSparseSampleDrefImplicitLod", "OpImageSparseSampleDrefExplicitLod",
  "OpImageSparseSampleProjImplicitLod", "OpImageSparseSampleProjExplicitLod",
  "OpImageSparseSampleProjDrefImplicitLod", "OpImageSparseSampleProjDrefExplicitLod",
  "OpImageSparseFetch", "OpImageSparseGather", "OpImageSparseDrefGather",
  "OpImageSparseTexelsResident", "OpImageSparseRead", "OpSizeOf"]

/-- `IsCombinatorInstruction` (ir_context.h:524-538). -/
def isCombinator (P : Prog) (i : Inst) : Bool :=
  if i.op = "OpExtInst" then P.extComb i else P.shader && combinators.contains i.op

/-- `spvOpcodeIsLoad` (opcode.cpp:304-332). -/
def isLoad (op : String) : Bool :=
  ["OpLoad", "OpImageSampleExplicitLod", "OpImageSampleImplicitLod", "OpImageSampleDrefImplicitLod",
   "OpImageSampleDrefExplicitLod", "OpImageSampleProjImplicitLod", "OpImageSampleProjExplicitLod",
   "OpImageSampleProjDrefImplicitLod", "OpImageSampleProjDrefExplicitLod",
   "OpImageSampleFootprintNV", "OpImageFetch", "OpImageGather", "OpImageDrefGather", "OpImageRead",
   "OpImageSparseSampleImplicitLod", "OpImageSparseSampleExplicitLod",
   "OpImageSparseSampleDrefExplicitLod", "OpImageSparseSampleDrefImplicitLod",
   "OpImageSparseFetch", "OpImageSparseGather", "OpImageSparseDrefGather",
   "OpImageSparseRead"].contains op

/-- `spvOpcodeIsCommutativeBinaryOperator` (opcode.cpp:580-611). -/
def isCommutative (op : String) : Bool :=
  ["OpPtrEqual", "OpPtrNotEqual", "OpIAdd", "OpFAdd", "OpIMul", "OpFMul", "OpDot", "OpIAddCarry",
   "OpUMulExtended", "OpSMulExtended", "OpBitwiseOr", "OpBitwiseXor", "OpBitwiseAnd", "OpOrdered",
   "OpUnordered", "OpLogicalEqual", "OpLogicalNotEqual", "OpLogicalOr", "OpLogicalAnd", "OpIEqual",
   "OpINotEqual", "OpFOrdEqual", "OpFUnordEqual", "OpFOrdNotEqual", "OpFUnordNotEqual"].contains op

/-- Instructions that get a number of their own (value_number_table.cpp:93-132). -/
def ownNumber (P : Prog) (i : Inst) : Bool :=
  (!isCombinator P i && !P.debug i) ||
  ["OpSampledImage", "OpImage", "OpVariable"].contains i.op ||
  (isLoad i.op && i.isOpaque) ||
  (isLoad i.op && !i.readOnly)

/-- An operand in the key of an instruction: a value number, an id without a number or a
literal (value_number_table.cpp:167-183). -/
inductive KOp where
  | num (n : Nat)
  | raw (x : Id)
  | lit (ws : List Nat)
deriving DecidableEq, Repr

/-- The word that stands for an operand, by which the operands of commutative operations
are sorted (value_number_table.cpp:177, 187). -/
def KOp.code : KOp → Nat
  | .num n => 2 ^ 31 + n
  | .raw x => x
  | .lit ws => ws.headD 0

/-- `value_ins` without its result id (value_number_table.cpp:169-193). -/
structure Key where
  op : String
  ty : Id
  ops : List KOp
deriving DecidableEq, Repr

/-- The members of `ValueNumberTable` (value_number_table.h:86-97); 0 is "no number". -/
structure St where
  num : Id → Nat
  table : List (Key × Id)
  next : Nat

/-- An operand of the key. -/
def kop (st : St) : Opnd → KOp
  | .id x => if st.num x = 0 then .raw x else .num (st.num x)
  | .lit ws => .lit ws

/-- The normal form of the operands (value_number_table.cpp:185-193). -/
def normal (op : String) (ks : List KOp) : List KOp :=
  match ks with
  | [a, b] => if isCommutative op && a.code > b.code then [b, a] else [a, b]
  | _ => ks

/-- The key of an instruction. -/
def key (st : St) (i : Inst) : Key := ⟨i.op, i.ty, normal i.op (i.ops.map (kop st))⟩

/-- The pairs of a phi: value and predecessor. -/
def phiArgs : List Opnd → List (Id × Block)
  | .id x :: .id p :: rest => (x, p) :: phiArgs rest
  | _ => []

/-- `id_to_value_[id] = value` -/
def setNum (st : St) (r : Id) (n : Nat) : St :=
  { st with num := fun x => if x = r then n else st.num x }

/-- `assign_new_number` (value_number_table.cpp:87-91). -/
def newNum (st : St) (r : Id) : St := setNum { st with next := st.next + 1 } r st.next

/-- Copies (value_number_table.cpp:136-145): 0 when the rule does not apply. -/
def copyNum (P : Prog) (st : St) (i : Inst) : Nat :=
  if i.op = "OpCopyObject" then
    match i.ops with
    | .id x :: _ => if P.deco i.result = P.deco x then st.num x else 0
    | _ => 0
  else 0

/-- Phis of one value (value_number_table.cpp:147-165): 0 when the rule does not apply. -/
def phiNum (P : Prog) (st : St) (i : Inst) : Nat :=
  if i.op = "OpPhi" then
    match phiArgs i.ops with
    | (x, _) :: rest =>
      if P.deco i.result = P.deco x ∧ rest.all (fun a => st.num a.1 == st.num x) then st.num x else 0
    | [] => 0
  else 0

/-- An instruction seen before with the same key and decorations
(value_number_table.cpp:195-201, 255-281). -/
def seen (P : Prog) (st : St) (i : Inst) : Option (Key × Id) :=
  st.table.find? fun e => e.1 == key st i && P.deco e.2 == P.deco i.result

/-- Add to `instruction_to_value_` (value_number_table.cpp:206). -/
def addKey (st : St) (k : Key) (r : Id) : St := { st with table := st.table ++ [(k, r)] }

/-- `AssignValueNumber` (value_number_table.cpp:80-208). -/
def assign (P : Prog) (st : St) (i : Inst) : St :=
  if st.num i.result ≠ 0 then st
  else if ownNumber P i then newNum st i.result
  else if copyNum P st i ≠ 0 then setNum st i.result (copyNum P st i)
  else if phiNum P st i ≠ 0 then setNum st i.result (phiNum P st i)
  else
    match seen P st i with
    | some e => setNum st i.result (st.num e.2)
    | none => newNum (addKey st (key st i) i.result) i.result

/-- The instructions with a result, in the order of the module. -/
def listing (P : Prog) : List Inst := (P.order.flatMap P.insts).filter fun i => i.result != 0

/-- `BuildDominatorTreeValueNumberTable` (value_number_table.cpp:210-253). -/
def build (P : Prog) : St := (listing P).foldl (assign P) ⟨fun _ => 0, [], 1⟩

/-- `EliminateRedundanciesInBB` (local_redundancy_elimination.cpp:42-71): the removed
ids with the ids in their place, and the map of values to ids afterwards. -/
def elimInsts (num : Id → Nat) : List Inst → List (Nat × Id) → List (Id × Id) × List (Nat × Id)
  | [], m => ([], m)
  | i :: is, m =>
    if i.result = 0 ∨ num i.result = 0 then elimInsts num is m
    else
      match m.lookup (num i.result) with
      | some c =>
        let r := elimInsts num is m
        ((i.result, c) :: r.1, r.2)
      | none => elimInsts num is ((num i.result, i.result) :: m)

/-- `LocalRedundancyEliminationPass::Process` (local_redundancy_elimination.cpp:22-40)
for the blocks `bs`. -/
def elimLocal (num : Id → Nat) (insts : Block → List Inst) (bs : List Block) : List (Id × Id) :=
  bs.flatMap fun b => (elimInsts num (insts b) []).1

/-- `EliminateRedundanciesFrom` (redundancy_elimination.cpp:44-62): `todo` is the part of
the vector not visited yet, `none` is out of fuel. -/
def elimFrom (num : Id → Nat) (insts : Block → List Inst) (children : Block → List Block) :
    Nat → List (Block × List (Nat × Id)) → Option (List (Id × Id))
  | _, [] => some []
  | 0, _ :: _ => none
  | n + 1, (b, m) :: todo =>
    let r := elimInsts num (insts b) m
    (elimFrom num insts children n (todo ++ (children b).map fun c => (c, r.2))).map (r.1 ++ ·)

end Verif.Vn
