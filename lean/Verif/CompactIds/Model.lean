import Verif.Ir.Model

/-!
# `CompactIdsPass`  (source/opt/compact_ids_pass.cpp)
-/
namespace Verif.CompactIds
open Verif.StringLit (Word)
open Verif.Binary (OT)
open Verif.Ir

/-- `result_id_mapping` (an `std::unordered_map`) with its insertion order, `modified`, and
whether the assertion of line 59 failed. -/
structure St where
  map : List (Word × Word)
  modified : Bool
  fault : Bool
  deriving DecidableEq, Repr

/-- `GetRemappedId`, source/opt/compact_ids_pass.cpp:28-39. -/
def remap (map : List (Word × Word)) (id : Word) : List (Word × Word) × Word :=
  match map.lookup id with
  | some new => (map, new)
  | none =>
    let new := BitVec.ofNat 32 map.length + 1#32
    (map ++ [(id, new)], new)

/-- The body of the operand loop, lines 56-75. `SetResultId` and `SetResultType` store the
new id into the same operand once more and are left out. -/
def operandStep (s : St) (o : Operand) : St × Operand :=
  if o.type.isId then
    match o.words with
    | [id] =>
      let r := remap s.map id
      (⟨r.1, s.modified || decide (id ≠ r.2), s.fault⟩, ⟨o.type, [r.2]⟩)
    | _ => ({ s with fault := true }, o)
  else (s, o)

/-- Lines 78-85 and 86-93: a debug scope field, `0` meaning none. -/
def scopeStep (s : St) (id : Word) : St × Word :=
  if id ≠ 0 then
    let r := remap s.map id
    (⟨r.1, s.modified || decide (id ≠ r.2), s.fault⟩, r.2)
  else (s, id)

/-- The callback of lines 53-94 on one instruction, apart from the updates of attached line
instructions. -/
def coreStep (s : St) (c : Core) : St × Core :=
  let a := mapAcc operandStep s c.operands
  let b := scopeStep a.1 c.scope
  let d := scopeStep b.1 c.inlinedAt
  (d.1, ⟨c.opcode, a.2, b.2, d.2⟩)

/-- `UpdateLexicalScope` and `UpdateDebugInlinedAt` copy a changed field to the attached line
instructions, source/opt/instruction.cpp:533-553. -/
def syncLine (old new : Core) (l : Core) : Core :=
  { l with
    scope := if old.scope ≠ new.scope then new.scope else l.scope
    inlinedAt := if old.inlinedAt ≠ new.inlinedAt then new.inlinedAt else l.inlinedAt }

/-- The callback on the line instructions of an instruction, then on the instruction,
`Instruction::WhileEachInst`, source/opt/instruction.h:755-763. -/
def instStep (s : St) (i : Inst) : St × Inst :=
  let l := mapAcc coreStep s i.lines
  let c := coreStep l.1 i.core
  (c.1, ⟨c.2, l.2.map (syncLine i.core c.2)⟩)

/-- … and for instructions of graphs, where line instructions are not visited. -/
def graphInstStep (s : St) (i : Inst) : St × Inst :=
  let c := coreStep s i.core
  (c.1, ⟨c.2, i.lines.map (syncLine i.core c.2)⟩)

/-- `CompactIdsPass::Process`, source/opt/compact_ids_pass.cpp:43-107. The result: the
module and whether `SuccessWithChange` was returned; `none` = failed assertion. -/
def process (m : Module) : Option (Module × Bool) :=
  let r := Module.mapAcc instStep graphInstStep ⟨[], false, false⟩ m
  if r.1.fault then none
  else
    let n := r.1.map.length + 1
    if m.bound.toNat ≠ n then
      if BitVec.ofNat 32 n = 0#32 then none       -- the assertion of SetIdBound
      else some ({ r.2 with bound := BitVec.ofNat 32 n }, true)
    else some (r.2, r.1.modified)

end Verif.CompactIds
