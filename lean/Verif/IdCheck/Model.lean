/-!
# Id validation (source/val/validate_id.cpp, IdPass, and its driver)

The loop of source/val/validate.cpp:230-326 runs `IdPass` on every instruction and registers
the instruction's result id afterwards; after the loop `ValidateForwardDecls` rejects the
module when forward-referenced ids are left. The other passes of the loop can only stop it
with errors of their own and are not modelled here.
-/
namespace Verif.IdCheck

/-- Opcodes as far as `spvOperandCanBeForwardDeclaredFunction` (source/operand.cpp:512-605)
distinguishes them. `typ` stands for every opcode with `spvOpcodeGeneratesType`. Opcodes of
one case label are grouped: `anyOperand` for OpExecutionMode, OpExecutionModeId, OpEntryPoint,
OpName, OpMemberName, OpSelectionMerge, OpDecorate, OpMemberDecorate, OpMemberDecorateIdEXT,
OpDecorateId, OpDecorateString, OpMemberDecorateString, OpBranch, OpLoopMerge,
OpConditionalEntryPointINTEL, OpConditionalCapabilityINTEL, OpConditionalExtensionINTEL. -/
inductive Op where
  | typ
  | anyOperand
  /-- OpGroupDecorate, OpGroupMemberDecorate, OpBranchConditional, OpSwitch -/
  | allButFirst
  | functionCall | constantFunctionPointer | phi | enqueueKernel
  /-- OpGetKernelNDrangeSubGroupCount, OpGetKernelNDrangeMaxSubGroupSize -/
  | getKernelNDrange
  /-- OpGetKernelWorkGroupSize, OpGetKernelPreferredWorkGroupSizeMultiple -/
  | getKernelWorkGroup
  | typeForwardPointer
  | cooperativeMatrixPerElementOp | cooperativeMatrixReduce | cooperativeMatrixLoadTensor
  | graphEntryPoint
  | extInst | extInstWithForwardRefs
  | other
  deriving DecidableEq

/-- Operands: a result id (its word is the instruction's result id), an id (also memory
semantics and scope ids), a type id, an extended instruction number, anything else. -/
inductive Operand where
  | resultId
  | id (w : Nat)
  | typeId (w : Nat)
  | extNumber
  | other
  deriving DecidableEq

/-- The debug info sets of source/operand.cpp:607-647, with the number of the instruction
where it matters. -/
inductive DebugInfo where
  | none
  | shader100
  /-- OpenCL.DebugInfo.100 and DebugInfo: DebugFunction, DebugTypeComposite, the rest -/
  | openCLFunction | openCLTypeComposite | openCLOther
  | debugInfoFunction | debugInfoTypeComposite | debugInfoOther
  deriving DecidableEq

/-- An instruction. `id` and `typeId` are 0 when absent. `nonSemantic` is `IsNonSemantic()`;
`canHaveType` and `requiresType` are the values of `InstructionCanHaveTypeOperand` and
`InstructionRequiresTypeOperand` (source/val/validate_id.cpp:119-186), which only depend on
the instruction. `debugInfo` is relevant for extended instructions only. -/
structure Inst where
  op : Op
  id : Nat
  typeId : Nat
  operands : List Operand
  nonSemantic : Bool
  canHaveType : Bool
  requiresType : Bool
  debugInfo : DebugInfo
  deriving DecidableEq

/-- `spvOpcodeGeneratesType` -/
def Inst.isType (i : Inst) : Bool := decide (i.op = .typ)

/-- `spvOperandCanBeForwardDeclaredFunction`, source/operand.cpp:512-605. -/
def canForwardOp (op : Op) (index : Nat) : Bool :=
  match op with
  | .typ => true
  | .anyOperand => true
  | .allButFirst => decide (index ≠ 0)
  | .functionCall => decide (index = 2)
  | .constantFunctionPointer => decide (index = 2)
  | .phi => decide (index > 1)
  | .enqueueKernel => decide (index = 8)
  | .getKernelNDrange => decide (index = 3)
  | .getKernelWorkGroup => decide (index = 2)
  | .typeForwardPointer => decide (index = 0)
  | .cooperativeMatrixPerElementOp => decide (index = 3)
  | .cooperativeMatrixReduce => decide (index = 4)
  | .cooperativeMatrixLoadTensor => decide (index > 6)
  | .graphEntryPoint => decide (index = 0)
  | .extInstWithForwardRefs => true
  | .extInst | .other => false

/-- `spvDbgInfoExtOperandCanBeForwardDeclaredFunction`, source/operand.cpp:607-647. -/
def canForwardDebug (op : Op) (d : DebugInfo) (index : Nat) : Bool :=
  match d with
  | .none => false
  | .shader100 => decide (op = .extInstWithForwardRefs)
  | .openCLFunction => decide (index = 13)
  | .openCLTypeComposite => decide (index ≥ 13)
  | .openCLOther => false
  | .debugInfoFunction => decide (index = 13)
  | .debugInfoTypeComposite => decide (index ≥ 12)
  | .debugInfoOther => false

/-- `can_have_forward_declared_ids`, source/val/validate_id.cpp:192-197. -/
def canForward (i : Inst) (index : Nat) : Bool :=
  if (i.op = .extInst ∨ i.op = .extInstWithForwardRefs) ∧ i.debugInfo ≠ .none then
    canForwardDebug i.op i.debugInfo index
  else canForwardOp i.op index

/-- The part of `ValidationState_t` involved: `all_definitions_` (in order of insertion;
`insert` keeps the first entry of a key), `unresolved_forward_ids_`,
`forward_pointer_ids_`. -/
structure State where
  defs : List (Nat × Inst)
  unresolved : List Nat
  forwardPointers : List Nat

/-- `FindDef`, source/val/validation_state.cpp:310-320. -/
def findDef (s : State) (w : Nat) : Option Inst := s.defs.lookup w

/-- The checks on the definition of an id operand, source/val/validate_id.cpp:229-249. -/
def idRules (inst d : Inst) : Bool :=
  if d.isType && !inst.canHaveType then false
  else if d.typeId = 0 ∧ d.isType = false ∧ inst.requiresType ∧ d.requiresType then false
  else if d.nonSemantic && !inst.nonSemantic then false
  else true

/-- The loop over the operands, source/val/validate_id.cpp:204-289: the ids newly declared
forward, in order, or `none` for a diagnostic. `has_forward_declared_ids` is that list not
being empty. -/
def operandLoop (s : State) (inst : Inst) : Nat → List Operand → Option (List Nat)
  | _, [] => some []
  | i, .resultId :: rest => operandLoop s inst (i + 1) rest
  | i, .id w :: rest =>
    match findDef s w with
    | some d => if idRules inst d then operandLoop s inst (i + 1) rest else none
    | none =>
      if canForward inst i then
        if inst.isType && !s.forwardPointers.contains w then none
        else match operandLoop s inst (i + 1) rest with
          | none => none
          | some ws => some (w :: ws)
      else none
  | i, .typeId w :: rest =>
    match findDef s w with
    | some d => if d.isType then operandLoop s inst (i + 1) rest else none
    | none => none
  | i, .extNumber :: rest =>
    if inst.op = .extInstWithForwardRefs ∧ inst.nonSemantic = false then none
    else operandLoop s inst (i + 1) rest
  | i, .other :: rest => operandLoop s inst (i + 1) rest

/-- `IdPass`, source/val/validate_id.cpp:191-303. -/
def idPass (s : State) (inst : Inst) : Option State :=
  match operandLoop s inst 0 inst.operands with
  | none => none
  | some ws =>
    if inst.op = .extInstWithForwardRefs ∧ ws = [] then none
    else
      let u := s.unresolved ++ ws
      some { s with unresolved := if inst.id ≠ 0 then u.filter (· ≠ inst.id) else u }

/-- The pointer id of an OpTypeForwardPointer: operand 0. -/
def pointerOperand (inst : Inst) : List Nat :=
  match inst.operands with
  | .id w :: _ => [w]
  | _ => []

/-- What follows in the loop body: `RegisterInstruction`
(source/val/validation_state.cpp:618-619) and `RegisterForwardPointer`
(source/val/validate.cpp:321-323). -/
def register (s : State) (inst : Inst) : State :=
  let s := if inst.id ≠ 0 then { s with defs := s.defs ++ [(inst.id, inst)] } else s
  if inst.op = .typeForwardPointer then
    { s with forwardPointers := s.forwardPointers ++ pointerOperand inst }
  else s

/-- The loop over the instructions and `ValidateForwardDecls`, source/val/validate.cpp:93-108,
230-326, 355. -/
def loop : State → List Inst → Bool
  | s, [] => s.unresolved.isEmpty
  | s, inst :: rest => match idPass s inst with
    | none => false
    | some s => loop (register s inst) rest

/-- Whether the id checks accept the instructions of a module. -/
def validate (m : List Inst) : Bool := loop ⟨[], [], []⟩ m

end Verif.IdCheck
