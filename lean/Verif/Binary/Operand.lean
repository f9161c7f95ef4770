/-!
# Operand types and operand patterns  (include/spirv-tools/libspirv.h, source/operand.cpp)

A pattern (`spv_operand_pattern_t`, a vector used as a stack) is a list whose head is the
back of the vector, i.e. the next operand to match.
-/
namespace Verif.Binary

/-- `spv_operand_type_t`, include/spirv-tools/libspirv.h:125-348. -/
inductive OT where
  | NONE | ID | TYPE_ID | RESULT_ID | MEMORY_SEMANTICS_ID | SCOPE_ID | LITERAL_INTEGER
  | EXTENSION_INSTRUCTION_NUMBER | SPEC_CONSTANT_OP_NUMBER | TYPED_LITERAL_NUMBER
  | LITERAL_FLOAT | LITERAL_STRING | SOURCE_LANGUAGE | EXECUTION_MODEL | ADDRESSING_MODEL
  | MEMORY_MODEL | EXECUTION_MODE | STORAGE_CLASS | DIMENSIONALITY | SAMPLER_ADDRESSING_MODE
  | SAMPLER_FILTER_MODE | SAMPLER_IMAGE_FORMAT | IMAGE_CHANNEL_ORDER
  | IMAGE_CHANNEL_DATA_TYPE | FP_ROUNDING_MODE | LINKAGE_TYPE | ACCESS_QUALIFIER
  | FUNCTION_PARAMETER_ATTRIBUTE | DECORATION | BUILT_IN | GROUP_OPERATION | KERNEL_ENQ_FLAGS
  | KERNEL_PROFILING_INFO | CAPABILITY | FPENCODING | IMAGE | FP_FAST_MATH_MODE
  | SELECTION_CONTROL | LOOP_CONTROL | FUNCTION_CONTROL | MEMORY_ACCESS
  | FRAGMENT_SHADING_RATE | OPTIONAL_ID | OPTIONAL_IMAGE | OPTIONAL_MEMORY_ACCESS
  | OPTIONAL_LITERAL_INTEGER | OPTIONAL_LITERAL_NUMBER | OPTIONAL_TYPED_LITERAL_INTEGER
  | OPTIONAL_LITERAL_STRING | OPTIONAL_ACCESS_QUALIFIER | OPTIONAL_CIV | OPTIONAL_FPENCODING
  | VARIABLE_ID | VARIABLE_LITERAL_INTEGER | VARIABLE_LITERAL_INTEGER_ID
  | VARIABLE_ID_LITERAL_INTEGER | DEBUG_INFO_FLAGS | DEBUG_BASE_TYPE_ATTRIBUTE_ENCODING
  | DEBUG_COMPOSITE_TYPE | DEBUG_TYPE_QUALIFIER | DEBUG_OPERATION
  | CLDEBUG100_DEBUG_INFO_FLAGS | CLDEBUG100_DEBUG_BASE_TYPE_ATTRIBUTE_ENCODING
  | CLDEBUG100_DEBUG_COMPOSITE_TYPE | CLDEBUG100_DEBUG_TYPE_QUALIFIER
  | CLDEBUG100_DEBUG_OPERATION | CLDEBUG100_DEBUG_IMPORTED_ENTITY | FPDENORM_MODE
  | FPOPERATION_MODE | QUANTIZATION_MODES | OVERFLOW_MODES | RAY_FLAGS
  | RAY_QUERY_INTERSECTION | RAY_QUERY_COMMITTED_INTERSECTION_TYPE
  | RAY_QUERY_CANDIDATE_INTERSECTION_TYPE | PACKED_VECTOR_FORMAT
  | OPTIONAL_PACKED_VECTOR_FORMAT | COOPERATIVE_MATRIX_OPERANDS
  | OPTIONAL_COOPERATIVE_MATRIX_OPERANDS | COOPERATIVE_MATRIX_LAYOUT | COOPERATIVE_MATRIX_USE
  | INITIALIZATION_MODE_QUALIFIER | HOST_ACCESS_QUALIFIER | LOAD_CACHE_CONTROL
  | STORE_CACHE_CONTROL | NAMED_MAXIMUM_NUMBER_OF_REGISTERS | RAW_ACCESS_CHAIN_OPERANDS
  | OPTIONAL_RAW_ACCESS_CHAIN_OPERANDS | TENSOR_CLAMP_MODE | COOPERATIVE_MATRIX_REDUCE
  | TENSOR_ADDRESSING_OPERANDS | MATRIX_MULTIPLY_ACCUMULATE_OPERANDS
  | OPTIONAL_MATRIX_MULTIPLY_ACCUMULATE_OPERANDS | COOPERATIVE_VECTOR_MATRIX_LAYOUT
  | COMPONENT_TYPE | KERNEL_PROPERTY_FLAGS | SHDEBUG100_BUILD_IDENTIFIER_FLAGS
  | SHDEBUG100_DEBUG_BASE_TYPE_ATTRIBUTE_ENCODING | SHDEBUG100_DEBUG_COMPOSITE_TYPE
  | SHDEBUG100_DEBUG_IMPORTED_ENTITY | SHDEBUG100_DEBUG_INFO_FLAGS
  | SHDEBUG100_DEBUG_OPERATION | SHDEBUG100_DEBUG_TYPE_QUALIFIER | TENSOR_OPERANDS
  | OPTIONAL_TENSOR_OPERANDS | OPTIONAL_CAPABILITY | VARIABLE_CAPABILITY | GATHER_MODES
  deriving DecidableEq, Repr

/-- `spvIsIdType`, source/operand.cpp:484-495. -/
def OT.isId : OT → Bool
  | .ID | .TYPE_ID | .RESULT_ID | .MEMORY_SEMANTICS_ID | .SCOPE_ID => true
  | _ => false

/-- `spvOperandIsConcreteMask`, source/operand.cpp:360-382. -/
def OT.isConcreteMask : OT → Bool
  | .IMAGE | .FP_FAST_MATH_MODE | .SELECTION_CONTROL | .LOOP_CONTROL | .FUNCTION_CONTROL
  | .MEMORY_ACCESS | .FRAGMENT_SHADING_RATE | .DEBUG_INFO_FLAGS
  | .CLDEBUG100_DEBUG_INFO_FLAGS | .COOPERATIVE_MATRIX_OPERANDS
  | .MATRIX_MULTIPLY_ACCUMULATE_OPERANDS | .RAW_ACCESS_CHAIN_OPERANDS
  | .COOPERATIVE_MATRIX_REDUCE | .TENSOR_ADDRESSING_OPERANDS | .TENSOR_OPERANDS => true
  | _ => false

/-- The `switch` of `spvOperandIsConcrete`, source/operand.cpp:286-356. -/
def OT.isConcreteOther : OT → Bool
  | .LITERAL_INTEGER | .LITERAL_FLOAT | .EXTENSION_INSTRUCTION_NUMBER
  | .SPEC_CONSTANT_OP_NUMBER | .TYPED_LITERAL_NUMBER | .LITERAL_STRING | .SOURCE_LANGUAGE
  | .EXECUTION_MODEL | .ADDRESSING_MODEL | .MEMORY_MODEL | .EXECUTION_MODE | .STORAGE_CLASS
  | .DIMENSIONALITY | .SAMPLER_ADDRESSING_MODE | .SAMPLER_FILTER_MODE | .SAMPLER_IMAGE_FORMAT
  | .IMAGE_CHANNEL_ORDER | .IMAGE_CHANNEL_DATA_TYPE | .FP_ROUNDING_MODE | .LINKAGE_TYPE
  | .ACCESS_QUALIFIER | .FUNCTION_PARAMETER_ATTRIBUTE | .DECORATION | .BUILT_IN
  | .GROUP_OPERATION | .KERNEL_ENQ_FLAGS | .KERNEL_PROFILING_INFO | .CAPABILITY | .RAY_FLAGS
  | .RAY_QUERY_INTERSECTION | .RAY_QUERY_COMMITTED_INTERSECTION_TYPE
  | .RAY_QUERY_CANDIDATE_INTERSECTION_TYPE | .DEBUG_BASE_TYPE_ATTRIBUTE_ENCODING
  | .DEBUG_COMPOSITE_TYPE | .DEBUG_TYPE_QUALIFIER | .DEBUG_OPERATION
  | .CLDEBUG100_DEBUG_BASE_TYPE_ATTRIBUTE_ENCODING | .CLDEBUG100_DEBUG_COMPOSITE_TYPE
  | .CLDEBUG100_DEBUG_TYPE_QUALIFIER | .CLDEBUG100_DEBUG_OPERATION
  | .CLDEBUG100_DEBUG_IMPORTED_ENTITY | .FPDENORM_MODE | .FPOPERATION_MODE
  | .QUANTIZATION_MODES | .OVERFLOW_MODES | .PACKED_VECTOR_FORMAT
  | .COOPERATIVE_MATRIX_LAYOUT | .COOPERATIVE_MATRIX_USE | .INITIALIZATION_MODE_QUALIFIER
  | .HOST_ACCESS_QUALIFIER | .LOAD_CACHE_CONTROL | .STORE_CACHE_CONTROL
  | .NAMED_MAXIMUM_NUMBER_OF_REGISTERS | .FPENCODING | .TENSOR_CLAMP_MODE
  | .COOPERATIVE_VECTOR_MATRIX_LAYOUT | .COMPONENT_TYPE | .KERNEL_PROPERTY_FLAGS
  | .SHDEBUG100_BUILD_IDENTIFIER_FLAGS | .SHDEBUG100_DEBUG_BASE_TYPE_ATTRIBUTE_ENCODING
  | .SHDEBUG100_DEBUG_COMPOSITE_TYPE | .SHDEBUG100_DEBUG_IMPORTED_ENTITY
  | .SHDEBUG100_DEBUG_INFO_FLAGS | .SHDEBUG100_DEBUG_OPERATION
  | .SHDEBUG100_DEBUG_TYPE_QUALIFIER | .GATHER_MODES => true
  | _ => false

/-- `spvOperandIsConcrete`, source/operand.cpp:282-358. -/
def OT.isConcrete (t : OT) : Bool :=
  if t.isId || t.isConcreteMask then true else t.isConcreteOther

/-- `spvOperandIsVariable`, source/operand.cpp:410-422. -/
def OT.isVariable : OT → Bool
  | .VARIABLE_ID | .VARIABLE_LITERAL_INTEGER | .VARIABLE_LITERAL_INTEGER_ID
  | .VARIABLE_ID_LITERAL_INTEGER | .VARIABLE_CAPABILITY => true
  | _ => false

/-- The `switch` of `spvOperandIsOptional`, source/operand.cpp:385-405. -/
def OT.isOptionalOnce : OT → Bool
  | .OPTIONAL_ID | .OPTIONAL_IMAGE | .OPTIONAL_MEMORY_ACCESS | .OPTIONAL_LITERAL_INTEGER
  | .OPTIONAL_LITERAL_NUMBER | .OPTIONAL_TYPED_LITERAL_INTEGER | .OPTIONAL_LITERAL_STRING
  | .OPTIONAL_ACCESS_QUALIFIER | .OPTIONAL_PACKED_VECTOR_FORMAT
  | .OPTIONAL_COOPERATIVE_MATRIX_OPERANDS | .OPTIONAL_MATRIX_MULTIPLY_ACCUMULATE_OPERANDS
  | .OPTIONAL_CIV | .OPTIONAL_RAW_ACCESS_CHAIN_OPERANDS | .OPTIONAL_FPENCODING
  | .OPTIONAL_TENSOR_OPERANDS | .OPTIONAL_CAPABILITY => true
  | _ => false

/-- `spvOperandIsOptional`, source/operand.cpp:384-408. -/
def OT.isOptional (t : OT) : Bool := if t.isOptionalOnce then true else t.isVariable

abbrev Pattern := List OT

/-- `spvPushOperandTypes`, source/operand.cpp:251-264: pushed in backward order, so the
first type ends up on top; `NONE` entries are skipped. -/
def pushTypes (types : List OT) (p : Pattern) : Pattern :=
  types.filter (fun t => t != .NONE) ++ p

/-- `spvExpandOperandSequenceOnce`, source/operand.cpp:424-456; `none` = returned false. -/
def expandOnce (t : OT) (p : Pattern) : Option Pattern :=
  match t with
  | .VARIABLE_ID => some (.OPTIONAL_ID :: t :: p)
  | .VARIABLE_LITERAL_INTEGER => some (.OPTIONAL_LITERAL_INTEGER :: t :: p)
  | .VARIABLE_LITERAL_INTEGER_ID => some (.OPTIONAL_TYPED_LITERAL_INTEGER :: .ID :: t :: p)
  | .VARIABLE_ID_LITERAL_INTEGER => some (.OPTIONAL_ID :: .LITERAL_INTEGER :: t :: p)
  | .VARIABLE_CAPABILITY => some (.OPTIONAL_CAPABILITY :: t :: p)
  | _ => none

/-- `spvTakeFirstMatchableOperand`, source/operand.cpp:458-467: pop, expand, repeat.
`none` = empty pattern (the assertion of line 460, or `back()` of an empty vector).
The loop runs at most twice: every expansion pushes a type that does not expand again,
so the second round is written as a plain pop; `takeFirst_terminates` in `Pattern.lean` proves
this. -/
def takeFirst : Pattern → Option (OT × Pattern)
  | [] => none
  | t :: p =>
    match expandOnce t p with
    | none => some (t, p)
    | some [] => none
    | some (t :: p) => some (t, p)

/-- The same `do … while` loop, literally, with a step budget. -/
def takeFirstLoop : Nat → Pattern → Option (OT × Pattern)
  | 0, _ => none
  | _ + 1, [] => none
  | n + 1, t :: p =>
    match expandOnce t p with
    | none => some (t, p)
    | some q => takeFirstLoop n q

/-- What `Parser::parseOperand` does with a type: the labels of its `switch`,
source/binary.cpp:503-857. -/
inductive Kind where
  | typeId | resultId | id | scopeOrSem | extInstNum | specConstOp | litInt | litFloat
  | typedLit | str | enum | sourceLang | mask | unhandled
  deriving DecidableEq, Repr

/-- Plain enum labels, source/binary.cpp:703-749. -/
def OT.isEnum : OT → Bool
  | .CAPABILITY | .OPTIONAL_CAPABILITY | .EXECUTION_MODEL | .ADDRESSING_MODEL | .MEMORY_MODEL
  | .EXECUTION_MODE | .STORAGE_CLASS | .DIMENSIONALITY | .SAMPLER_ADDRESSING_MODE
  | .SAMPLER_FILTER_MODE | .SAMPLER_IMAGE_FORMAT | .FP_ROUNDING_MODE | .LINKAGE_TYPE
  | .ACCESS_QUALIFIER | .OPTIONAL_ACCESS_QUALIFIER | .FUNCTION_PARAMETER_ATTRIBUTE
  | .DECORATION | .BUILT_IN | .GROUP_OPERATION | .KERNEL_ENQ_FLAGS | .KERNEL_PROFILING_INFO
  | .RAY_FLAGS | .RAY_QUERY_INTERSECTION | .RAY_QUERY_COMMITTED_INTERSECTION_TYPE
  | .RAY_QUERY_CANDIDATE_INTERSECTION_TYPE | .DEBUG_BASE_TYPE_ATTRIBUTE_ENCODING
  | .DEBUG_COMPOSITE_TYPE | .DEBUG_TYPE_QUALIFIER | .DEBUG_OPERATION
  | .CLDEBUG100_DEBUG_BASE_TYPE_ATTRIBUTE_ENCODING | .CLDEBUG100_DEBUG_COMPOSITE_TYPE
  | .CLDEBUG100_DEBUG_TYPE_QUALIFIER | .CLDEBUG100_DEBUG_OPERATION
  | .CLDEBUG100_DEBUG_IMPORTED_ENTITY | .FPDENORM_MODE | .FPOPERATION_MODE
  | .QUANTIZATION_MODES | .OVERFLOW_MODES | .PACKED_VECTOR_FORMAT
  | .OPTIONAL_PACKED_VECTOR_FORMAT | .FPENCODING | .OPTIONAL_FPENCODING
  | .HOST_ACCESS_QUALIFIER | .LOAD_CACHE_CONTROL | .STORE_CACHE_CONTROL
  | .NAMED_MAXIMUM_NUMBER_OF_REGISTERS | .GATHER_MODES => true
  | _ => false

/-- Mask labels, source/binary.cpp:789-807. -/
def OT.isMask : OT → Bool
  | .FP_FAST_MATH_MODE | .FUNCTION_CONTROL | .LOOP_CONTROL | .IMAGE | .OPTIONAL_IMAGE
  | .MEMORY_ACCESS | .TENSOR_OPERANDS | .OPTIONAL_TENSOR_OPERANDS | .OPTIONAL_MEMORY_ACCESS
  | .OPTIONAL_RAW_ACCESS_CHAIN_OPERANDS | .SELECTION_CONTROL | .CLDEBUG100_DEBUG_INFO_FLAGS
  | .DEBUG_INFO_FLAGS | .COOPERATIVE_MATRIX_OPERANDS | .OPTIONAL_COOPERATIVE_MATRIX_OPERANDS
  | .COOPERATIVE_MATRIX_REDUCE | .TENSOR_ADDRESSING_OPERANDS
  | .MATRIX_MULTIPLY_ACCUMULATE_OPERANDS | .OPTIONAL_MATRIX_MULTIPLY_ACCUMULATE_OPERANDS => true
  | _ => false

/-- Labels of the `switch` in source/binary.cpp:503-857. -/
def OT.kind (t : OT) : Kind :=
  match t with
  | .TYPE_ID => .typeId
  | .RESULT_ID => .resultId
  | .ID | .OPTIONAL_ID => .id
  | .SCOPE_ID | .MEMORY_SEMANTICS_ID => .scopeOrSem
  | .EXTENSION_INSTRUCTION_NUMBER => .extInstNum
  | .SPEC_CONSTANT_OP_NUMBER => .specConstOp
  | .LITERAL_INTEGER | .OPTIONAL_LITERAL_INTEGER => .litInt
  | .LITERAL_FLOAT => .litFloat
  | .TYPED_LITERAL_NUMBER | .OPTIONAL_TYPED_LITERAL_INTEGER => .typedLit
  | .LITERAL_STRING | .OPTIONAL_LITERAL_STRING => .str
  | .SOURCE_LANGUAGE => .sourceLang
  | t => if t.isEnum then .enum else if t.isMask then .mask else .unhandled

/-- The type recorded for a parsed operand (optional types are mapped to their concrete
type): source/binary.cpp:530, 611, 619, 626, 684, 753-760, 811-823. -/
def OT.recorded : OT → OT
  | .OPTIONAL_ID => .ID
  | .OPTIONAL_LITERAL_INTEGER => .LITERAL_INTEGER
  | .OPTIONAL_TYPED_LITERAL_INTEGER => .TYPED_LITERAL_NUMBER
  | .OPTIONAL_LITERAL_STRING => .LITERAL_STRING
  | .OPTIONAL_ACCESS_QUALIFIER => .ACCESS_QUALIFIER
  | .OPTIONAL_PACKED_VECTOR_FORMAT => .PACKED_VECTOR_FORMAT
  | .OPTIONAL_FPENCODING => .FPENCODING
  | .OPTIONAL_CAPABILITY => .CAPABILITY
  | .OPTIONAL_IMAGE => .IMAGE
  | .OPTIONAL_MEMORY_ACCESS => .MEMORY_ACCESS
  | .OPTIONAL_COOPERATIVE_MATRIX_OPERANDS => .COOPERATIVE_MATRIX_OPERANDS
  | .OPTIONAL_RAW_ACCESS_CHAIN_OPERANDS => .RAW_ACCESS_CHAIN_OPERANDS
  | .OPTIONAL_MATRIX_MULTIPLY_ACCUMULATE_OPERANDS => .MATRIX_MULTIPLY_ACCUMULATE_OPERANDS
  | .OPTIONAL_TENSOR_OPERANDS => .TENSOR_OPERANDS
  | t => t

end Verif.Binary
