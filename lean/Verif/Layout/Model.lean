/-!
# Logical layout validation (source/val/validate_layout.cpp)

The layout check runs over the instructions in module order and keeps the current layout
section, whether a function (and a block) is open, and the region of the current graph.
Other checks of the same loop (ids, capabilities, branch targets) can only stop it with an
error of their own and are not modelled here.
-/
namespace Verif.Layout

/-- An extended instruction as far as the check distinguishes it: whether the opcode is
OpExtInstWithForwardRefsKHR, whether its set is a debug info set (`spvExtInstIsDebugInfo`,
source/ext_inst.cpp:91-98), whether its number is one of the `local_debug_info` ones
(source/val/validate_layout.cpp:39-75), and whether the set is non-semantic
(`spvExtInstIsNonSemantic`, source/ext_inst.cpp:80-89). -/
structure Ext where
  forwardRefs : Bool
  debugInfo : Bool
  localInfo : Bool
  nonSemantic : Bool
  deriving DecidableEq

/-- Opcodes as far as the check distinguishes them; the grouping is that of the case labels
of `InstructionLayoutSection`, source/val/validation_state.cpp:43-137. `typ` stands for
every opcode with `spvOpcodeGeneratesType` or `spvOpcodeIsConstant`, OpTypeForwardPointer
and OpTypeTaskSequenceINTEL; `undef` for OpUndef and OpPoisonKHR; `var` for OpVariable and
OpUntypedVariableKHR; `terminator` for the opcodes for which `CfgPass` ends the block,
source/val/validate_cfg.cpp:1170-1215; `other` for all opcodes not listed. -/
inductive Op where
  | capability | extension | extInstImport | memoryModel | samplerImageAddressingMode
  | entryPoint | executionMode | source | name | moduleProcessed | annotation
  | typ | var | undef | line
  | ext (e : Ext)
  | function | functionParameter | functionEnd | label | terminator
  | compositeExtract
  | graphEntryPoint | graph | graphInput | graphSetOutput | graphEnd
  | other
  deriving DecidableEq

/-! `enum ModuleLayoutSection`, source/val/validation_state.h:47-64. -/
abbrev kCapabilities : Nat := 0
abbrev kExtensions : Nat := 1
abbrev kExtInstImport : Nat := 2
abbrev kMemoryModel : Nat := 3
abbrev kSamplerImageAddressMode : Nat := 4
abbrev kEntryPoint : Nat := 5
abbrev kExecutionMode : Nat := 6
abbrev kDebug1 : Nat := 7
abbrev kDebug2 : Nat := 8
abbrev kDebug3 : Nat := 9
abbrev kAnnotations : Nat := 10
abbrev kTypes : Nat := 11
abbrev kFunctionDeclarations : Nat := 12
abbrev kFunctionDefinitions : Nat := 13
abbrev kGraphDefinitions : Nat := 14

/-! `enum GraphDefinitionRegion`, source/val/validation_state.h:68-74. -/
abbrev kOutside : Nat := 0
abbrev kBegin : Nat := 1
abbrev kInputs : Nat := 2
abbrev kBody : Nat := 3
abbrev kOutputs : Nat := 4

/-- `InstructionLayoutSection`, source/val/validation_state.cpp:43-137. -/
def layoutSection (current : Nat) : Op → Nat
  | .typ => kTypes
  | .capability => kCapabilities
  | .extension => kExtensions
  | .extInstImport => kExtInstImport
  | .memoryModel => kMemoryModel
  | .entryPoint => kEntryPoint
  | .executionMode => kExecutionMode
  | .source => kDebug1
  | .name => kDebug2
  | .moduleProcessed => kDebug3
  | .annotation => kAnnotations
  | .var => if current = kTypes then kTypes else kFunctionDefinitions
  | .ext _ =>
    if current = kTypes then kTypes
    else if current = kGraphDefinitions then kGraphDefinitions
    else kFunctionDefinitions
  | .line | .undef => if current = kTypes then kTypes else kFunctionDefinitions
  | .function | .functionParameter | .functionEnd =>
    if current = kFunctionDeclarations then kFunctionDeclarations else kFunctionDefinitions
  | .samplerImageAddressingMode => kSamplerImageAddressMode
  | .graphEntryPoint | .graph | .graphInput | .graphSetOutput | .graphEnd => kGraphDefinitions
  | .compositeExtract =>
    if current = kGraphDefinitions then kGraphDefinitions else kFunctionDefinitions
  | .label | .terminator | .other => kFunctionDefinitions

/-- `enum class FunctionDecl`, source/val/function.h. -/
inductive Decl where
  | unknown | declaration | definition
  deriving DecidableEq

/-- `Function`, source/val/function.h, as far as the layout check uses it: `hasBlocks` is
`block_count() != 0`, `inBlock` is `current_block_ != nullptr`. -/
structure Fn where
  decl : Decl
  hasBlocks : Bool
  inBlock : Bool
  deriving DecidableEq

/-- The part of `ValidationState_t` the layout check uses; `fn` is `module_functions_.back()`. -/
structure State where
  section_ : Nat
  inFunction : Bool
  fn : Option Fn
  region : Nat
  memoryModel : Bool
  deriving DecidableEq

/-- source/val/validation_state.cpp:186-213 -/
def initial : State := ⟨kCapabilities, false, none, kOutside, false⟩

/-- Result of a check: go on, a diagnostic, or a failed `assert`. -/
inductive Res where
  | ok (s : State)
  | error
  | fault
  deriving DecidableEq

/-- `IsOpcodeInCurrentLayoutSection`, source/val/validation_state.cpp:139-141, 340-342. -/
def inCurrent (s : State) (op : Op) : Bool := s.section_ == layoutSection s.section_ op

/-- `IsOpcodeInPreviousLayoutSection`, source/val/validation_state.cpp:334-338. -/
def inPrevious (s : State) (op : Op) : Bool := decide (layoutSection s.section_ op < s.section_)

/-- `ProgressToNextLayoutSectionOrder`, source/val/validation_state.cpp:326-332. -/
def progress (s : State) : State :=
  if s.section_ ≤ kFunctionDefinitions then { s with section_ := s.section_ + 1 } else s

/-- `in_block`, source/val/validation_state.cpp:397-400. -/
def inBlock (s : State) : Bool :=
  match s.fn with
  | none => false
  | some f => f.inBlock

/-- `current_function()` (source/val/validation_state.cpp:373-381, asserts
`in_function_body()`) updated by `g`. -/
def onFunction (s : State) (g : Fn → Option Fn) : Res :=
  if s.inFunction = false then .fault else
  match s.fn with
  | none => .fault
  | some f => match g f with
    | none => .fault
    | some f' => .ok { s with fn := some f' }

/-- `Function::RegisterSetFunctionDeclType`, source/val/function.cpp:112-116 (asserts the
type was unknown). -/
def setDecl (s : State) (d : Decl) : Res :=
  onFunction s fun f => if f.decl = .unknown then some { f with decl := d } else none

/-- `SetGraphDefinitionRegion`, source/val/validation_state.cpp:578-583. -/
def setRegion (s : State) (r : Nat) : Res :=
  if (r = kOutside ∧ s.region = kOutputs) ∨ s.region ≤ r then .ok { s with region := r }
  else .fault

/-- `GraphScopedInstructions`, source/val/validate_layout.cpp:352-427. -/
def graphScoped (s : State) (op : Op) : Res :=
  if inCurrent s op then
    match op with
    | .graph => if s.region > kOutside then .error else setRegion s kBegin
    | .graphInput =>
      if s.region ≠ kBegin ∧ s.region ≠ kInputs then .error else setRegion s kInputs
    | .graphSetOutput =>
      if s.region ≠ kBegin ∧ s.region ≠ kInputs ∧ s.region ≠ kBody ∧ s.region ≠ kOutputs then
        .error
      else setRegion s kOutputs
    | .graphEnd => if s.region ≠ kOutputs then .error else setRegion s kOutside
    | .graphEntryPoint => if s.region ≠ kOutside then .error else .ok s
    | .ext e =>
      if e.forwardRefs = false ∧ e.nonSemantic then .ok s
      else if s.region = kOutside then .error
      else if s.region = kOutputs then .error
      else setRegion s kBody
    | _ =>
      if s.region = kOutside then .error
      else if s.region = kOutputs then .error
      else setRegion s kBody
  else .error

/-- `ValidationState_t::RegisterFunction`, source/val/validation_state.cpp:550-564. -/
def registerFunction (s : State) : Res :=
  if s.inFunction then .fault
  else .ok { s with inFunction := true, fn := some ⟨.unknown, false, false⟩ }

/-- `Function::RegisterFunctionParameter`, source/val/function.cpp:55-66 (asserts no block is
open). -/
def registerParameter (s : State) : Res :=
  onFunction s fun f => if f.inBlock then none else some f

/-- `ValidationState_t::RegisterFunctionEnd`, source/val/validation_state.cpp:566-576. -/
def registerFunctionEnd (s : State) : Res :=
  if s.inFunction = false ∨ inBlock s then .fault
  else .ok { s with inFunction := false }

/-- `block_count() != 0` of the current function; false when there is none (the code asserts
`in_function_body()` first, which its callers have checked). -/
def hasBlocks (s : State) : Bool :=
  match s.fn with
  | none => false
  | some f => f.hasBlocks

/-- The extended instruction cases of `FunctionScopedInstructions`,
source/val/validate_layout.cpp:246-328. -/
def functionExt (s : State) (e : Ext) : Res :=
  if e.debugInfo then
    if e.localInfo then
      if s.inFunction = false then .error else .ok s
    else if s.section_ < kTypes ∨ s.section_ ≥ kFunctionDeclarations then .error
    else .ok s
  else if e.nonSemantic then
    if s.section_ < kTypes then .error
    else if s.inFunction ∧ inBlock s = false then .error
    else .ok s
  else if inBlock s = false then .error
  else .ok s

/-- The switch of `FunctionScopedInstructions`, source/val/validate_layout.cpp:176-342. -/
def functionSwitch (s : State) (op : Op) : Res :=
  match op with
  | .function =>
    if s.inFunction then .error else
    match registerFunction s with
    | .ok s => if s.section_ = kFunctionDefinitions then setDecl s .definition else .ok s
    | r => r
  | .functionParameter =>
    if s.inFunction = false then .error
    else if hasBlocks s then .error
    else registerParameter s
  | .functionEnd =>
    if s.inFunction = false then .error
    else if inBlock s then .error
    else if hasBlocks s = false ∧ s.section_ = kFunctionDefinitions then .error
    else if s.section_ = kFunctionDeclarations then
      match setDecl s .declaration with
      | .ok s => registerFunctionEnd s
      | r => r
    else registerFunctionEnd s
  | .line => .ok s
  | .label =>
    if s.inFunction = false then .error
    else if inBlock s then .error
    else .ok s
  | .ext e => functionExt s e
  | _ =>
    if s.section_ = kFunctionDeclarations ∧ s.inFunction then .error
    else if inBlock s = false then .error
    else .ok s

/-- `FunctionScopedInstructions`, source/val/validate_layout.cpp:158-350; `again` is
`ModuleLayoutPass`. -/
def functionScoped (again : State → Op → Res) (s : State) (op : Op) : Res :=
  let r : Res :=
    if s.section_ = kFunctionDeclarations ∧ inCurrent s op = false then
      let s := progress s
      if s.inFunction then setDecl s .definition else .ok s
    else .ok s
  match r with
  | .ok s =>
    if inCurrent s op then functionSwitch s op
    else again (progress s) op
  | r => r

/-- The checks of extended instructions at module scope,
source/val/validate_layout.cpp:36-120: whether they pass. -/
def moduleExt (s : State) (e : Ext) : Bool :=
  if e.debugInfo then
    if e.localInfo then s.inFunction
    else decide (¬ (s.section_ < kTypes ∨ s.section_ ≥ kFunctionDeclarations))
  else if e.nonSemantic then decide (¬ s.section_ < kTypes)
  else decide (¬ s.section_ < kFunctionDefinitions)

/-- The loop of `ModuleScopedInstructions`, source/val/validate_layout.cpp:122-147. The
number of iterations is bounded by `fuel`; running out of it is a `fault`. -/
def moduleLoop (again : State → Op → Res) : Nat → State → Op → Res
  | 0, _, _ => .fault
  | fuel + 1, s, op =>
    if inCurrent s op then .ok s
    else if inPrevious s op then .error
    else
      let s := progress s
      if s.section_ = kMemoryModel then
        if op ≠ .memoryModel then .error else moduleLoop again fuel s op
      else if s.section_ = kFunctionDeclarations then again s op
      else moduleLoop again fuel s op

/-- `ModuleScopedInstructions`, source/val/validate_layout.cpp:34-149. -/
def moduleScoped (again : State → Op → Res) (s : State) (op : Op) : Res :=
  match op with
  | .ext e => if moduleExt s e then moduleLoop again 16 s op else .error
  | _ => moduleLoop again 16 s op

/-- `ModuleLayoutPass`, source/val/validate_layout.cpp:434-465. Its recursion depth is
bounded by the first argument; exceeding it is a `fault`. -/
def layoutPass : Nat → State → Op → Res
  | 0, _, _ => .fault
  | depth + 1, s, op =>
    if s.section_ ≤ kTypes then moduleScoped (layoutPass depth) s op
    else if s.section_ ≤ kFunctionDefinitions then functionScoped (layoutPass depth) s op
    else graphScoped s op

/-- The effect of `CfgPass` on what the layout check reads,
source/val/validate_cfg.cpp:1142-1236: a label opens a block (`Function::RegisterBlock`,
source/val/function.cpp:118-140), a terminator closes it (`RegisterBlockEnd`, 142-180). -/
def cfgPass (s : State) (op : Op) : Res :=
  match op with
  | .label => onFunction s fun f =>
      if f.decl = .definition ∧ f.inBlock = false then
        some { f with hasBlocks := true, inBlock := true }
      else none
  | .terminator => onFunction s fun f => if f.inBlock then some { f with inBlock := false } else none
  | _ => .ok s

/-- `InstructionPass`'s handling of OpMemoryModel,
source/val/validate_instruction.cpp:472-478. -/
def instructionPass (s : State) (op : Op) : Res :=
  match op with
  | .memoryModel => if s.memoryModel then .error else .ok { s with memoryModel := true }
  | _ => .ok s

/-- One iteration of the loop over the instructions, source/val/validate.cpp:304-307. -/
def step (s : State) (op : Op) : Res :=
  match layoutPass 3 s op with
  | .ok s => match cfgPass s op with
    | .ok s => instructionPass s op
    | r => r
  | r => r

/-- The loop and the checks after it, source/val/validate.cpp:230-341: `ok` when the layout
is accepted. -/
def run : State → List Op → Res
  | s, [] =>
    if s.memoryModel = false then .error
    else if s.inFunction then .error
    else if s.region ≠ kOutside then .error
    else .ok s
  | s, op :: rest => match step s op with
    | .ok s => run s rest
    | r => r

/-- Whether the layout of a module (its instructions, in order) is accepted. -/
def accepts (m : List Op) : Bool :=
  match run initial m with
  | .ok _ => true
  | _ => false

end Verif.Layout
