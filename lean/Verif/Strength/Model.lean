import Verif.NextId.Model
/-!
# Strength reduction (`source/opt/strength_reduction_pass.cpp`)

A module is modelled by its global instructions (`types_values`) and the instructions of all
functions in order; blocks do not matter, since a multiplication is replaced where it stands.
Annotations, names and line instructions are not modelled.
-/
namespace Verif.Strength
open Verif.StringLit (Word)
open Verif.NextId (Ctx takeNextId)

inductive BinOp where
  | mul
  | shl
deriving DecidableEq

/-- An instruction: `OpTypeInt`, `OpConstant`, `OpIMul` and `OpShiftLeftLogical`, and any other,
    with the ids it uses. -/
inductive Inst where
  | intType (r width : Word) (signed : Bool)
  | const (t r : Word) (ws : List Word)
  | bin (op : BinOp) (t r a b : Word)
  | other (tag : Nat) (t r : Word) (uses : List Word)
deriving DecidableEq

def Inst.result : Inst → Word
  | .intType r _ _ => r
  | .const _ r _ => r
  | .bin _ _ r _ _ => r
  | .other _ _ r _ => r

structure Mod where
  globals : List Inst
  body : List Inst
  ctx : Ctx

/-- The pass and the module it works on: `int32_type_id_`, `uint32_type_id_`, `constant_ids_`. -/
structure State where
  m : Mod
  int32 : Word
  uint32 : Word
  consts : Nat → Word

/-- Outcome: `Status::Failure`, or a failed assertion or null dereference, or success. -/
inductive Res (α : Type) where
  | ok (a : α)
  | failure
  | fault

/-- `CountTrailingZeros` (strength_reduction_pass.cpp:32-41); `none` is divergence. -/
def countTrailingZeros (v : Word) (shift : Word := 0) : Option Word :=
  if v &&& 1 = 0 then countTrailingZeros (v >>> 1) (shift + 1) else some shift
partial_fixpoint

/-- `IsPowerOf2` (:44-50). -/
def isPowerOf2 (v : Word) : Bool := if v = 0 then false else (v - 1) &&& v = 0

/-- A 32-bit integer type of the given signedness. -/
def isIntType (signed : Bool) : Inst → Bool
  | .intType _ w s => w == 32 && s == signed
  | _ => false

/-- `TypeManager::GetId` for a 32-bit integer type; 0 if the module has none. -/
def intTypeId (m : Mod) (signed : Bool) : Word :=
  match m.globals.find? (isIntType signed) with
  | some i => i.result
  | none => 0

/-- The loop of `FindIntTypesAndConstants` (:126-139); `none` is a failed assertion. -/
def findConstants (uint32 : Word) : List Inst → (Nat → Word) → Option (Nat → Word)
  | [], c => some c
  | .const t r ws :: l, c =>
    if t = uint32 then
      match ws with
      | [v] => findConstants uint32 l (if v.toNat ≤ 32 then fun n => if n = v.toNat then r else c n else c)
      | _ => none
    else findConstants uint32 l c
  | _ :: l, c => findConstants uint32 l c

/-- `DefUseManager::GetDef`. -/
def getDef (m : Mod) (id : Word) : Option Inst := (m.globals ++ m.body).find? (fun i => i.result = id)

/-- `TypeManager::GetTypeInstruction` for an unsigned 32-bit integer (type_manager.cpp), called
    only if there is no such type (:149-152).  It returns 0 if there is no id left. -/
def makeUint32 (s : State) : State :=
  let (id, ctx) := takeNextId s.m.ctx
  if id = 0 then { s with m := { s.m with ctx := ctx }, uint32 := 0 }
  else { s with m := { s.m with ctx := ctx, globals := s.m.globals ++ [.intType id 32 false] }, uint32 := id }

/-- `GetConstantId` (:143-174). -/
def getConstantId (s : State) (v : Word) : Res (Word × State) :=
  if 32 < v.toNat then .fault
  else if s.consts v.toNat = 0 then
    let s := if s.uint32 = 0 then makeUint32 s else s
    let (id, ctx) := takeNextId s.m.ctx
    if id = 0 then .failure
    else .ok (id, { s with
      m := { s.m with ctx := ctx, globals := s.m.globals ++ [.const s.uint32 id [v]] }
      consts := fun n => if n = v.toNat then id else s.consts n })
  else .ok (s.consts v.toNat, s)

/-- `IRContext::ReplaceAllUsesWith` on one instruction.  `old` is the result of a multiplication
    and so not a type. -/
def Inst.rename (old new : Word) : Inst → Inst
  | .bin op t r a b => .bin op t r (if a = old then new else a) (if b = old then new else b)
  | .other tag t r us => .other tag t r (us.map (fun u => if u = old then new else u))
  | i => i

/-- The replacement of the multiplication `r` at position `k` (:85-113): the new instruction takes
    its place, and its uses become uses of the new one. -/
def replace (s : State) (k : Nat) (t r x w : Word) : Res State :=
  match countTrailingZeros w with
  | none => .fault
  | some sh =>
    match getConstantId s sh with
    | .failure => .failure
    | .fault => .fault
    | .ok (c, s) =>
      let (id, ctx) := takeNextId s.m.ctx
      if id = 0 then .failure
      else .ok { s with m := {
        globals := s.m.globals.map (·.rename r id)
        body := (s.m.body.set k (.bin .shl t id x c)).map (·.rename r id)
        ctx := ctx } }

/-- The loop over the operands (:77-119): `x` is the operand that would remain. -/
def tryOperands (s : State) (k : Nat) (t r : Word) : List (Word × Word) → Res State
  | [] => .ok s
  | (op, x) :: l =>
    match getDef s.m op with
    | none => .fault
    | some (.const _ _ [w]) => if isPowerOf2 w then replace s k t r x w else tryOperands s k t r l
    | some (.const _ _ _) => .fault
    | some _ => tryOperands s k t r l

/-- The body of the loop of `ScanFunctions` (:185-196) with `ReplaceMultiplyByPowerOf2`
    (:65-122). -/
def visit (s : State) (k : Nat) : Res State :=
  match s.m.body[k]? with
  | some (.bin .mul t r a b) =>
    if t ≠ s.int32 ∧ t ≠ s.uint32 then .ok s else tryOperands s k t r [(a, b), (b, a)]
  | _ => .ok s

/-- `ScanFunctions` (:177-202): the number of instructions does not change. -/
def scan (s : State) : List Nat → Res State
  | [] => .ok s
  | k :: ks =>
    match visit s k with
    | .ok s => scan s ks
    | .failure => .failure
    | .fault => .fault

/-- `Process` (:54-63). -/
def process (m : Mod) : Res State :=
  let uint32 := intTypeId m false
  match findConstants uint32 m.globals (fun _ => 0) with
  | none => .fault
  | some consts => scan ⟨m, intTypeId m true, uint32, consts⟩ (List.range m.body.length)

end Verif.Strength
