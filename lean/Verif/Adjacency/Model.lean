/-!
# Adjacency validation (source/val/validate_adjacency.cpp)
-/
namespace Verif.Adjacency

/-- Instructions as far as the check distinguishes them. -/
inductive Op where
  | function | functionParameter | label
  /-- OpExtInst, OpExtInstWithForwardRefsKHR: whether `spvExtInstIsDebugInfo` holds of the
  instruction set, and whether the set is NonSemantic.Shader.DebugInfo.100 -/
  | extInst (debugInfo shader100 : Bool)
  | phi | line | noLine | loopMerge | selectionMerge
  /-- storage class Function or another -/
  | var (isFunction : Bool)
  | untypedVar (isFunction : Bool)
  | branch | branchConditional | switch
  | other
  deriving DecidableEq

/-- source/val/validate_adjacency.cpp:27-37. -/
inductive Status where
  | inNewFunction | inEntryBlock | phiValid | phiAndVarInvalid
  deriving DecidableEq

/-- One iteration of the loop, source/val/validate_adjacency.cpp:43-133: the next status,
or `none` for a diagnostic. `next` is the following instruction, if any. -/
def step (st : Status) (inst : Op) (next : Option Op) : Option Status :=
  match inst with
  | .function | .functionParameter => some .inNewFunction
  | .label => some (if st = .inNewFunction then .inEntryBlock else .phiValid)
  | .extInst debugInfo shader100 =>
    if !debugInfo || shader100 then some .phiAndVarInvalid else some st
  | .phi => if st ≠ .phiValid then none else some st
  | .line | .noLine => some st
  | .loopMerge =>
    match next with
    | none => some .phiAndVarInvalid
    | some .branch => some .phiAndVarInvalid
    | some .branchConditional => some .phiAndVarInvalid
    | some _ => none
  | .selectionMerge =>
    match next with
    | none => some .phiAndVarInvalid
    | some .branchConditional => some .phiAndVarInvalid
    | some .switch => some .phiAndVarInvalid
    | some _ => none
  | .var isFunction => if isFunction ∧ st ≠ .inEntryBlock then none else some st
  | .untypedVar isFunction => if isFunction ∧ st ≠ .inEntryBlock then none else some st
  | .branch | .branchConditional | .switch | .other => some .phiAndVarInvalid

def loop : Status → List Op → Bool
  | _, [] => true
  | st, i :: rest => match step st i rest.head? with
    | none => false
    | some st' => loop st' rest

/-- `ValidateAdjacency`, source/val/validate_adjacency.cpp:39-136: whether it succeeds. -/
def validate (insts : List Op) : Bool := loop .phiAndVarInvalid insts

end Verif.Adjacency
