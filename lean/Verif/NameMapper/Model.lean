/-
Model of `source/name_mapper.cpp`: `FriendlyNameMapper`.
-/
namespace Verif.NameMapper

/-- `std::string`; characters stand for bytes. -/
abbrev Text := List Char

/-- `to_string` of an unsigned number (source/to_string.cpp). -/
def toStr (n : Nat) : Text := Nat.toDigits 10 n

/-- The characters kept by `Sanitize` (name_mapper.cpp:66-69). -/
def valid : Text :=
  "abcdefghijklmnopqrstuvwxyzABCDEFGHIJKLMNOPQRSTUVWXYZ_0123456789".toList

/-- `FriendlyNameMapper::Sanitize` (name_mapper.cpp:62-76). -/
def sanitize (s : Text) : Text :=
  if s = [] then ['_'] else s.map (fun c => if valid.contains c then c else '_')

/-- `name_for_id_` (at most one entry per id) and `used_names_`
    (name_mapper.h:118-121). -/
structure State where
  names : List (Nat × Text)
  used : List Text

def State.empty : State := ⟨[], []⟩

/-- `FriendlyNameMapper::NameForId` (name_mapper.cpp:51-60). -/
def nameForId (s : State) (id : Nat) : Text :=
  match s.names.lookup id with
  | none => toStr id
  | some n => n

/-- The loop over the suffix index (name_mapper.cpp:93-97).  `none` means that
    the fuel ran out.  The index is a `uint32_t`; it is unbounded here, which makes
    no difference as it never exceeds the number of names in use. -/
def pickName (used : List Text) (pre : Text) : (fuel : Nat) → (index : Nat) → Option Text
  | 0, _ => none
  | fuel + 1, index =>
    let name := pre ++ toStr index
    if used.contains name then pickName used pre fuel (index + 1) else some name

/-- `FriendlyNameMapper::SaveName` (name_mapper.cpp:78-100).  `none` is a loop
    that does not end within as many rounds as there are names, plus one. -/
def saveName (s : State) (id : Nat) (suggested : Text) : Option State :=
  if (s.names.lookup id).isSome then some s
  else
    let base := if 256 < suggested.length then toStr id else sanitize suggested
    if s.used.contains base then
      match pickName s.used (base ++ ['_']) (s.used.length + 1) 0 with
      | none => none
      | some name => some ⟨s.names ++ [(id, name)], name :: s.used⟩
    else some ⟨s.names ++ [(id, base)], base :: s.used⟩

/-- The table of `SaveBuiltInName` (name_mapper.cpp:102-167): enumerant name and
    suggested name.  Built-ins are identified by the name of their enumerant, as
    the numeric values are not part of /repo. -/
def builtIns : List (String × String) :=
  [("Position", "gl_Position"),
   ("PointSize", "gl_PointSize"),
   ("ClipDistance", "gl_ClipDistance"),
   ("CullDistance", "gl_CullDistance"),
   ("VertexId", "gl_VertexID"),
   ("InstanceId", "gl_InstanceID"),
   ("PrimitiveId", "gl_PrimitiveID"),
   ("InvocationId", "gl_InvocationID"),
   ("Layer", "gl_Layer"),
   ("ViewportIndex", "gl_ViewportIndex"),
   ("TessLevelOuter", "gl_TessLevelOuter"),
   ("TessLevelInner", "gl_TessLevelInner"),
   ("TessCoord", "gl_TessCoord"),
   ("PatchVertices", "gl_PatchVertices"),
   ("FragCoord", "gl_FragCoord"),
   ("PointCoord", "gl_PointCoord"),
   ("FrontFacing", "gl_FrontFacing"),
   ("SampleId", "gl_SampleID"),
   ("SamplePosition", "gl_SamplePosition"),
   ("SampleMask", "gl_SampleMask"),
   ("FragDepth", "gl_FragDepth"),
   ("HelperInvocation", "gl_HelperInvocation"),
   ("NumWorkgroups", "gl_NumWorkGroups"),
   ("WorkgroupSize", "gl_WorkGroupSize"),
   ("WorkgroupId", "gl_WorkGroupID"),
   ("LocalInvocationId", "gl_LocalInvocationID"),
   ("GlobalInvocationId", "gl_GlobalInvocationID"),
   ("LocalInvocationIndex", "gl_LocalInvocationIndex"),
   ("WorkDim", "WorkDim"),
   ("GlobalSize", "GlobalSize"),
   ("EnqueuedWorkgroupSize", "EnqueuedWorkgroupSize"),
   ("GlobalOffset", "GlobalOffset"),
   ("GlobalLinearId", "GlobalLinearId"),
   ("SubgroupSize", "SubgroupSize"),
   ("SubgroupMaxSize", "SubgroupMaxSize"),
   ("NumSubgroups", "NumSubgroups"),
   ("NumEnqueuedSubgroups", "NumEnqueuedSubgroups"),
   ("SubgroupId", "SubgroupId"),
   ("SubgroupLocalInvocationId", "SubgroupLocalInvocationId"),
   ("VertexIndex", "gl_VertexIndex"),
   ("InstanceIndex", "gl_InstanceIndex"),
   ("BaseInstance", "gl_BaseInstance"),
   ("SubgroupEqMaskKHR", "SubgroupEqMaskKHR"),
   ("SubgroupGeMaskKHR", "SubgroupGeMaskKHR"),
   ("SubgroupGtMaskKHR", "SubgroupGtMaskKHR"),
   ("SubgroupLeMaskKHR", "SubgroupLeMaskKHR"),
   ("SubgroupLtMaskKHR", "SubgroupLtMaskKHR")]

/-- `SaveBuiltInName` (name_mapper.cpp:102-167). -/
def saveBuiltInName (s : State) (target : Nat) (builtIn : String) : Option State :=
  match builtIns.lookup builtIn with
  | some name => saveName s target name.toList
  | none => some s

/-- A parsed instruction, as far as `ParseInstruction` looks at it.  Ids and
    numbers are the words it reads; enumerants are given by the name
    `NameForEnumOperand` finds (`none`: not in the table). -/
inductive Op where
  | name (target : Nat) (text : Text)
  | decorateBuiltIn (target : Nat) (builtIn : String)
  | decorateOther
  | typeVoid | typeBool
  | typeInt (width : Nat) (signedness : Nat)
  /-- `encoding`: the name used for a floating point encoding operand that is
      present and known. -/
  | typeFloat (width : Nat) (encoding : Option String)
  | typeVector (component : Nat) (count : Nat)
  | typeMatrix (column : Nat) (count : Nat)
  | typeArray (element : Nat) (length : Nat)
  | typeRuntimeArray (element : Nat)
  | typeNodePayloadArray (element : Nat)
  | typePointer (storage : Nat) (storageName : Option Text) (pointee : Nat)
  | typeUntypedPointer (storage : Nat) (storageName : Option Text)
  | typePipe (access : Nat) (accessName : Option Text)
  | typeEvent | typeDeviceEvent | typeReserveId | typeQueue
  | typeOpaque (text : Text)
  | typePipeStorage | typeNamedBarrier | typeStruct
  | constantTrue | constantFalse
  /-- `literal`: the text `EmitNumericLiteral` writes for the value. -/
  | constant (typeId : Nat) (literal : Text)
  | other
deriving DecidableEq

structure Inst where
  op : Op
  /-- 0 if the instruction has no result. -/
  resultId : Nat
  numOperands : Nat

/-- `NameForEnumOperand` (name_mapper.cpp:389-398). -/
def nameForEnum (word : Nat) (name : Option Text) : Text :=
  match name with
  | some n => n
  | none => "StorageClass".toList ++ toStr word

/-- The name suggested for an `OpTypeInt` (name_mapper.cpp:193-217). -/
def intName (width signedness : Nat) : Text :=
  let root := if width = 8 then "char".toList else if width = 16 then "short".toList
    else if width = 32 then "int".toList else if width = 64 then "long".toList else toStr width
  let sg := if width = 8 ∨ width = 16 ∨ width = 32 ∨ width = 64 then [] else ['i']
  (if signedness = 0 then ['u'] else sg) ++ root

/-- The name suggested for an `OpTypeFloat` (name_mapper.cpp:218-270). -/
def floatName (width : Nat) (encoding : Option String) : Text :=
  match encoding with
  | some n => n.toList
  | none => if width = 16 then "half".toList else if width = 32 then "float".toList
    else if width = 64 then "double".toList else "fp".toList ++ toStr width

/-- `FriendlyNameMapper::ParseInstruction` (name_mapper.cpp:169-387). -/
def parseInstruction (s : State) (i : Inst) : Option State :=
  if i.numOperands = 0 then some s
  else
    match i.op with
    | .name t n => saveName s t n
    | .decorateBuiltIn t b => saveBuiltInName s t b
    | .decorateOther => some s
    | .typeVoid => saveName s i.resultId "void".toList
    | .typeBool => saveName s i.resultId "bool".toList
    | .typeInt w sg => saveName s i.resultId (intName w sg)
    | .typeFloat w e => saveName s i.resultId (floatName w e)
    | .typeVector c n => saveName s i.resultId ("v".toList ++ toStr n ++ nameForId s c)
    | .typeMatrix c n => saveName s i.resultId ("mat".toList ++ toStr n ++ nameForId s c)
    | .typeArray e l =>
      saveName s i.resultId ("_arr_".toList ++ nameForId s e ++ "_".toList ++ nameForId s l)
    | .typeRuntimeArray e => saveName s i.resultId ("_runtimearr_".toList ++ nameForId s e)
    | .typeNodePayloadArray e => saveName s i.resultId ("_payloadarr_".toList ++ nameForId s e)
    | .typePointer w n p =>
      saveName s i.resultId ("_ptr_".toList ++ nameForEnum w n ++ "_".toList ++ nameForId s p)
    | .typeUntypedPointer w n => saveName s i.resultId ("_ptr_".toList ++ nameForEnum w n)
    | .typePipe w n => saveName s i.resultId ("Pipe".toList ++ nameForEnum w n)
    | .typeEvent => saveName s i.resultId "Event".toList
    | .typeDeviceEvent => saveName s i.resultId "DeviceEvent".toList
    | .typeReserveId => saveName s i.resultId "ReserveId".toList
    | .typeQueue => saveName s i.resultId "Queue".toList
    | .typeOpaque t => saveName s i.resultId ("Opaque_".toList ++ sanitize t)
    | .typePipeStorage => saveName s i.resultId "PipeStorage".toList
    | .typeNamedBarrier => saveName s i.resultId "NamedBarrier".toList
    | .typeStruct => saveName s i.resultId ("_struct_".toList ++ toStr i.resultId)
    | .constantTrue => saveName s i.resultId "true".toList
    | .constantFalse => saveName s i.resultId "false".toList
    | .constant t lit =>
      saveName s i.resultId
        (nameForId s t ++ "_".toList ++ lit.map (fun c => if c = '-' then 'n' else c))
    | .other =>
      if i.resultId ≠ 0 ∧ (s.names.lookup i.resultId).isSome = false then
        saveName s i.resultId (toStr i.resultId)
      else some s

/-- The constructor (name_mapper.cpp:36-49): the callbacks of the parse, in
    order. -/
def build : List Inst → State → Option State
  | [], s => some s
  | i :: is, s =>
    match parseInstruction s i with
    | none => none
    | some s' => build is s'

end Verif.NameMapper
