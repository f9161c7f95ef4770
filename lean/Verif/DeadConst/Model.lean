import Verif.DefUse.Model

/-!
# Dead constant elimination (source/opt/eliminate_dead_constant_pass.cpp)

The uses the def-use manager reports are taken from the module itself; C31
(`Verif.DefUse.defUse_exact`) is the statement that the two agree.
`none` stands for the failed assertion on the use count.
-/
namespace Verif.DeadConst

open Verif.DefUse (Kind isUseType upd)

abbrev Id := Nat

/-- Opcodes as the pass tells them apart. -/
inductive Cls where
  /-- OpConstantComposite, OpSpecConstantComposite, OpSpecConstantOp
  (eliminate_dead_constant_pass.cpp:61-63) -/
  | composite
  /-- every other opcode of `spvOpcodeIsConstant`, source/opcode.cpp:133-164 -/
  | constant
  /-- OpDecorate, OpDecorateId, OpDecorateString, OpMemberDecorate: in-operand 0 is the
  target (source/opt/decoration_manager.cpp:361-368); also OpDecorationGroup -/
  | annotation
  /-- OpMemberDecorateIdEXT and OpMemberDecorateString: annotations
  (source/opt/reflect.h:42-49) that the decoration manager does not record -/
  | memberAnnotation
  /-- OpGroupDecorate: in-operand 0 is the group, the others are targets -/
  | groupDecorate
  /-- OpGroupMemberDecorate: as before, but targets and member numbers alternate -/
  | groupMemberDecorate
  /-- OpName, OpMemberName (`IsDebug2Inst`): in-operand 0 is the target -/
  | name
  /-- OpSource..., OpString, OpModuleProcessed (`IsDebug1Inst`, `IsDebug3Inst`) -/
  | debug
  | other
  deriving DecidableEq

structure Inst where
  cls : Cls
  type : Id := 0
  result : Id := 0
  ins : List (Kind × Nat) := []
  deriving DecidableEq

def isConst (c : Cls) : Bool := c == .composite || c == .constant

/-- The users that do not count, eliminate_dead_constant_pass.cpp:44-47. -/
def excluded (c : Cls) : Bool :=
  c == .annotation || c == .memberAnnotation || c == .groupDecorate || c == .groupMemberDecorate || c == .name || c == .debug

/-- All operands (type id, result id, in-operands). -/
def Inst.operands (i : Inst) : List (Kind × Nat) :=
  (if i.type ≠ 0 then [(.typeId, i.type)] else []) ++
  (if i.result ≠ 0 then [(.resultId, i.result)] else []) ++ i.ins

/-- Number of operands of `u` that `ForEachUse(id)` reports. -/
def usesIn (u : Inst) (id : Id) : Nat :=
  (u.operands.filter fun p => isUseType p.1 && p.2 == id).length

/-- The count computed for one constant, eliminate_dead_constant_pass.cpp:37-48. -/
def countUses (m : List Inst) (id : Id) : Nat :=
  (m.map fun u => if excluded u.cls then 0 else usesIn u id).sum

/-- `use_counts`, `working_list` and `dead_consts`; constants are identified by their
result id. -/
structure State where
  counts : Id → Option Nat
  work : List Id
  dead : List Id

/-- `GetConstants`, source/opt/module.cpp:58-64. -/
def constants (m : List Inst) : List Inst := m.filter fun i => isConst i.cls

def insertSet (l : List Id) (a : Id) : List Id := if a ∈ l then l else l ++ [a]

/-- eliminate_dead_constant_pass.cpp:34-53. -/
def init (m : List Inst) : State :=
  { counts := fun id => if id ∈ (constants m).map (·.result) then some (countUses m id) else none
    work := ((constants m).map (·.result)).filter fun id => countUses m id == 0
    dead := [] }

/-- The operand loop, eliminate_dead_constant_pass.cpp:64-86. -/
def release : List (Kind × Nat) → (Id → Option Nat) → List Id → Option ((Id → Option Nat) × List Id)
  | [], counts, work => some (counts, work)
  | (k, word) :: ops, counts, work =>
    if k ≠ .id then release ops counts work
    else match counts word with
      | none => release ops counts work
      | some 0 => none
      | some (n + 1) =>
        release ops (upd counts word (some n)) (if n = 0 then insertSet work word else work)

/-- `*working_list.begin()` of an unordered set: any element, chosen by `pick`. -/
def choose (pick : List Id → Nat) (work : List Id) : Option Id := work[pick work % work.length]?

/-- The worklist loop, eliminate_dead_constant_pass.cpp:57-92. -/
def loop (pick : List Id → Nat) (m : List Inst) : Nat → State → Option State
  | 0, s => if s.work = [] then some s else none
  | fuel + 1, s =>
    match choose pick s.work with
    | none => some s
    | some c =>
      match (constants m).find? (fun i => i.result == c) with
      | none => none
      | some inst =>
        match (if inst.cls = .composite then release inst.ins s.counts s.work
               else some (s.counts, s.work)) with
        | none => none
        | some (counts, work) =>
          loop pick m fuel
            { counts := counts, work := work.filter (· ≠ c), dead := insertSet s.dead c }

/-- The removal of `id` from the targets of a group application by moving the last target
into its place, source/opt/decoration_manager.cpp:101-121. -/
def dropTargets {α : Type} (same : α → Bool) : Nat → Nat → List α → List α
  | 0, _, ts => ts
  | fuel + 1, i, ts =>
    match ts[i]? with
    | none => ts
    | some t =>
      if same t then
        match ts.getLast? with
        | none => ts
        | some l => dropTargets same fuel i ((ts.set i l).dropLast)
      else dropTargets same fuel (i + 1) ts

/-- OpGroupMemberDecorate: targets with their member numbers. -/
def pairUp {α : Type} : List α → List (α × α)
  | a :: b :: l => (a, b) :: pairUp l
  | _ => []

def unpair {α : Type} : List (α × α) → List α
  | [] => []
  | (a, b) :: l => a :: b :: unpair l

/-- What killing the constant `id` does to one instruction: `none` when it is deleted.
`IRContext::KillInst` (source/opt/ir_context.cpp:192-252), `KillNamesAndDecorates`
(532-549) and `DecorationManager::RemoveDecorationsFrom`
(source/opt/decoration_manager.cpp:55-178, with the predicate that accepts everything).
OpGroupMemberDecorate is recorded under its member numbers, in-operands 2, 4, ...
(decoration_manager.cpp:371-378), but its targets are in-operands 1, 3, ...
Debug information is not modelled: a constant named by it is used and hence not killed. -/
def killOne (id : Id) (u : Inst) : Option Inst :=
  match u.cls with
  | .composite | .constant => if u.result = id then none else some u
  | .annotation | .name => if (u.ins.head?.map (·.2)) = some id then none else some u
  | .groupDecorate =>
    match u.ins with
    | [] => some u
    | g :: ts =>
      if ts.any (fun t => t.2 == id) then
        let ts' := dropTargets (fun t => t.2 == id) (2 * ts.length) 0 ts
        if ts' = [] then none else some { u with ins := g :: ts' }
      else some u
  | .groupMemberDecorate =>
    match u.ins with
    | [] => some u
    | g :: ts =>
      if (pairUp ts).any (fun t => t.2.2 == id) then
        let ts' := dropTargets (fun t => t.1.2 == id) (2 * (pairUp ts).length) 0 (pairUp ts)
        if ts' = [] then none else some { u with ins := g :: unpair ts' }
      else some u
  | .memberAnnotation | .debug | .other => some u

/-- `KillDef`, source/opt/ir_context.cpp:299-306. -/
def kill (id : Id) (m : List Inst) : List Inst := m.filterMap (killOne id)

/-- The pass, eliminate_dead_constant_pass.cpp:29-100. -/
def process (pick : List Id → Nat) (m : List Inst) : Option (List Inst) :=
  match loop pick m (constants m).length (init m) with
  | none => none
  | some s => some (s.dead.foldl (fun m id => kill id m) m)

end Verif.DeadConst
