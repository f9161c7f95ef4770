/-!
# The def-use manager and the edits that maintain it
(source/opt/def_use_manager.{h,cpp}, source/opt/ir_context.cpp)

Instruction objects are identified by a number (their address, or the `unique_id` that
orders `UserEntry`s). `none` stands for a failed assertion ("Definition is not
registered." and so on), after which a release build would go on with a null pointer.
-/
namespace Verif.DefUse

abbrev Ptr := Nat
abbrev Id := Nat

/-- The operand types that matter here, source/operand.cpp:484-495; `lit` stands for all
the others. -/
inductive Kind where
  | id | typeId | resultId | memorySemanticsId | scopeId | lit
  deriving DecidableEq

/-- `spvIsIdType`, source/operand.cpp:484-495. -/
def isIdType : Kind → Bool
  | .id | .typeId | .resultId | .memorySemanticsId | .scopeId => true
  | .lit => false

/-- The cases of the `switch` in `AnalyzeInstUse`, source/opt/def_use_manager.cpp:49-54. -/
def isUseType : Kind → Bool
  | .id | .typeId | .memorySemanticsId | .scopeId => true
  | .resultId | .lit => false

/-- An instruction (source/opt/instruction.h): type id and result id (0 when absent) and
the in-operands, each with its type and first word. -/
structure Inst where
  type : Id := 0
  result : Id := 0
  ins : List (Kind × Nat) := []
  deriving DecidableEq, Inhabited

/-- All operands in order: type id, result id, in-operands
(`Instruction::GetOperand`, source/opt/instruction.h). -/
def Inst.operands (i : Inst) : List (Kind × Nat) :=
  (if i.type ≠ 0 then [(.typeId, i.type)] else []) ++
  (if i.result ≠ 0 then [(.resultId, i.result)] else []) ++ i.ins

def upd {α β : Type} [DecidableEq α] (f : α → β) (a : α) (b : β) : α → β :=
  fun x => if x = a then b else f x

/-- `DefUseManager`, source/opt/def_use_manager.h:245-249: `id_to_def_`, `id_to_users_`
(a set of (definition, user) pairs; iteration follows `unique_id`s, the model keeps them
in insertion order) and `inst_to_used_ids_`. -/
structure Mgr where
  defs : Id → Option Ptr := fun _ => none
  users : List (Ptr × Ptr) := []
  used : Ptr → Option (List Id) := fun _ => none

/-- The contents of the instruction objects in the module. -/
abbrev World := Ptr → Option Inst

/-- `EraseUseRecordsOfOperandIds`, source/opt/def_use_manager.cpp:249-260. Erasing the pair
with a null definition does nothing, as no such pair is stored. -/
def eraseUses (m : Mgr) (i : Ptr) : Mgr :=
  match m.used i with
  | none => m
  | some ids =>
    { m with
      users := ids.foldl (fun us id => match m.defs id with
        | some d => us.filter (fun p => p ≠ (d, i))
        | none => us) m.users
      used := upd m.used i none }

/-- `ClearInst`, source/opt/def_use_manager.cpp:232-247; `inst` is what `i` points to. -/
def clearInst (m : Mgr) (i : Ptr) (inst : Inst) : Mgr :=
  match m.used i with
  | none => m
  | some _ =>
    let m := eraseUses m i
    if inst.result ≠ 0 then
      { m with users := m.users.filter (fun p => p.1 ≠ i), defs := upd m.defs inst.result none }
    else m

/-- `AnalyzeInstDef`, source/opt/def_use_manager.cpp:21-34. -/
def analyzeDef (w : World) (m : Mgr) (i : Ptr) (inst : Inst) : Mgr :=
  if inst.result ≠ 0 then
    let m := match m.defs inst.result with
      | some j => clearInst m j ((w j).getD {})
      | none => m
    { m with defs := upd m.defs inst.result (some i) }
  else clearInst m i inst

/-- Insertion into `id_to_users_` (a set). -/
def insertUser (us : List (Ptr × Ptr)) (p : Ptr × Ptr) : List (Ptr × Ptr) :=
  if p ∈ us then us else us ++ [p]

/-- The operand loop of `AnalyzeInstUse`, source/opt/def_use_manager.cpp:47-63. -/
def useLoop (defs : Id → Option Ptr) (i : Ptr) :
    List (Kind × Nat) → List (Ptr × Ptr) → List Id → Option (List (Ptr × Ptr) × List Id)
  | [], us, ids => some (us, ids)
  | (k, word) :: ops, us, ids =>
    if isUseType k then
      match defs word with
      | none => none
      | some d => useLoop defs i ops (insertUser us (d, i)) (ids ++ [word])
    else useLoop defs i ops us ids

/-- `AnalyzeInstUse`, source/opt/def_use_manager.cpp:36-64. -/
def analyzeUse (m : Mgr) (i : Ptr) (inst : Inst) : Option Mgr :=
  let m := match m.used i with
    | some (_ :: _) => eraseUses m i
    | _ => m
  match useLoop m.defs i inst.operands m.users [] with
  | none => none
  | some (us, ids) => some { m with users := us, used := upd m.used i (some ids) }

/-- `AnalyzeInstDefUse`, source/opt/def_use_manager.cpp:66-72. Line instructions attached
to the instruction are instructions of their own in this model. -/
def analyzeDefUse (w : World) (m : Mgr) (i : Ptr) (inst : Inst) : Option Mgr :=
  analyzeUse (analyzeDef w m i inst) i inst

/-- `UpdateDefUse`, source/opt/def_use_manager.cpp:74-83. -/
def updateDefUse (w : World) (m : Mgr) (i : Ptr) (inst : Inst) : Option Mgr :=
  let m := if inst.result ≠ 0 then
      (match m.defs inst.result with
       | none => analyzeDef w m i inst
       | some _ => m)
    else m
  analyzeUse m i inst

/-- First pass of `AnalyzeDefUse(Module*)`, source/opt/def_use_manager.cpp:224-226. -/
def defPass (w : World) : List (Ptr × Inst) → Mgr → Mgr
  | [], m => m
  | (i, inst) :: is, m => defPass w is (analyzeDef w m i inst)

/-- Second pass, source/opt/def_use_manager.cpp:227-229. -/
def usePass : List (Ptr × Inst) → Mgr → Option Mgr
  | [], m => some m
  | (i, inst) :: is, m => match analyzeUse m i inst with
    | none => none
    | some m => usePass is m

/-- The module as a world. -/
def worldOf (is : List (Ptr × Inst)) : World := fun p => is.lookup p

/-- `DefUseManager::DefUseManager(Module*)`, source/opt/def_use_manager.h:81 and
source/opt/def_use_manager.cpp:221-230. -/
def build (is : List (Ptr × Inst)) : Option Mgr := usePass is (defPass (worldOf is) is {})

/-! ## queries -/

/-- `GetDef`, source/opt/def_use_manager.cpp:85-95. -/
def Mgr.getDef (m : Mgr) (id : Id) : Option Ptr := m.defs id

/-- The users visited by `ForEachUser(id)`, source/opt/def_use_manager.cpp:114-144.
`none`: the id has no registered definition. -/
def Mgr.forEachUser (m : Mgr) (id : Id) : Option (List Ptr) :=
  match m.defs id with
  | none => none
  | some d => some ((m.users.filter (fun p => p.1 = d)).map (·.2))

/-- The operand indices of one user visited by `WhileEachUse`,
source/opt/def_use_manager.cpp:156-163. -/
def useIndices (id : Id) (inst : Inst) : List Nat :=
  (inst.operands.zipIdx.filter fun ((k, word), _) =>
    decide (k ≠ .resultId) && isIdType k && decide (word = id)).map (·.2)

/-- The (user, operand index) pairs visited by `ForEachUse(id)`,
source/opt/def_use_manager.cpp:146-186. -/
def Mgr.forEachUse (w : World) (m : Mgr) (id : Id) : Option (List (Ptr × Nat)) :=
  match m.forEachUser id with
  | none => none
  | some us => some (us.flatMap fun u => (useIndices id ((w u).getD {})).map fun k => (u, k))

/-! ## edits -/

/-- The operand update of `ReplaceAllUsesWithPredicate`, source/opt/ir_context.cpp:373-394:
`SetResultType` for the type id, `SetInOperand` for in-operands; the other branches are
assertion failures. -/
def setUse (inst : Inst) (index : Nat) (after : Id) : Option Inst :=
  let count := (if inst.result ≠ 0 then 1 else 0) + (if inst.type ≠ 0 then 1 else 0)
  if index < count then
    if inst.type ≠ 0 ∧ index = 0 then some { inst with type := after }
    else none
  else
    match inst.ins[index - count]? with
    | none => none
    | some (k, _) => some { inst with ins := inst.ins.set (index - count) (k, after) }

/-- The update loop of `ReplaceAllUsesWithPredicate`, source/opt/ir_context.cpp:364-397.
`ForgetUses` and `AnalyzeUses` (source/opt/ir_context.cpp:499-530) act on the def-use
manager by `EraseUseRecordsOfOperandIds` and `AnalyzeInstUse`. -/
def replaceLoop (after : Id) : List (Ptr × Nat) → Option Ptr → World → Mgr → Option (World × Mgr)
  | [], _, w, m => some (w, m)
  | (user, index) :: ps, prev, w, m =>
    let m := if prev = some user then m else eraseUses m user
    match w user with
    | none => none
    | some inst => match setUse inst index after with
      | none => none
      | some inst' => match analyzeUse m user inst' with
        | none => none
        | some m => replaceLoop after ps (some user) (upd w user (some inst')) m

/-- `IRContext::ReplaceAllUsesWithPredicate`, source/opt/ir_context.cpp:343-399, as far as
instructions and the def-use manager are concerned. -/
def replaceAllUses (w : World) (m : Mgr) (before after : Id) (pred : Ptr → Bool) :
    Option (World × Mgr) :=
  if before = after then some (w, m)
  else match m.defs after with
    | none => none
    | some _ => match m.forEachUse w before with
      | none => none
      | some uses => replaceLoop after (uses.filter fun p => pred p.1) none w m

/-- Edits of the module together with the upkeep of the manager the code performs. -/
inductive Op where
  /-- A new instruction object is put in the module and `AnalyzeInstDefUse` called. -/
  | add (i : Ptr) (inst : Inst)
  /-- `IRContext::KillInst`, source/opt/ir_context.cpp:192-252 (names, decorations and
  debug scopes are killed by further steps). -/
  | kill (i : Ptr)
  /-- `ForgetUses`, change of the operands, `AnalyzeUses`. -/
  | edit (i : Ptr) (type : Id) (ins : List (Kind × Nat))
  /-- Change of the operands, then `UpdateDefUse`. -/
  | update (i : Ptr) (type : Id) (ins : List (Kind × Nat))
  /-- `ReplaceAllUsesWithPredicate`. -/
  | replace (before after : Id) (pred : Ptr → Bool)

def exec (w : World) (m : Mgr) : Op → Option (World × Mgr)
  | .add i inst =>
    (analyzeDefUse w m i inst).map fun m => (upd w i (some inst), m)
  | .kill i => match w i with
    | none => none
    | some inst => some (upd w i none, clearInst m i inst)
  | .edit i type ins => match w i with
    | none => none
    | some inst =>
      let inst' := { inst with type := type, ins := ins }
      (analyzeUse (eraseUses m i) i inst').map fun m => (upd w i (some inst'), m)
  | .update i type ins => match w i with
    | none => none
    | some inst =>
      let inst' := { inst with type := type, ins := ins }
      (updateDefUse (upd w i (some inst')) m i inst').map fun m => (upd w i (some inst'), m)
  | .replace before after pred => replaceAllUses w m before after pred

def run (w : World) (m : Mgr) : List Op → Option (World × Mgr)
  | [] => some (w, m)
  | op :: ops => match exec w m op with
    | none => none
    | some (w, m) => run w m ops

end Verif.DefUse
