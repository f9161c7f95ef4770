/-!
# Removing members of structures that are not used

`source/opt/eliminate_dead_members_pass.cpp`. Ids of types are numbers; a table says what each type
is.
-/
namespace Verif.DeadMembers

/-- What the pass distinguishes: OpTypeStruct; OpTypeArray and OpTypeRuntimeArray; other types with
elements (vectors, matrices, cooperative matrices); the rest, with pointers. -/
inductive TyDef where
  | struct (members : List Nat)
  | arr (elem : Nat)
  | vec (elem : Nat)
  | leaf
deriving DecidableEq

abbrev Types := Nat → TyDef

/-- `used_members_`: a sorted set for each type. -/
abbrev Used := Nat → List Nat

/-- Inserting into a `std::set`. -/
def setInsert (i : Nat) : List Nat → List Nat
  | [] => [i]
  | j :: l => if i < j then i :: j :: l else if i = j then j :: l else j :: setInsert i l

/-- `used_members_[t].insert(i)`. -/
def mark (u : Used) (t i : Nat) : Used := fun s => if s = t then setInsert i (u t) else u s

/-- `MarkTypeAsFullyUsed`, eliminate_dead_members_pass.cpp:145-165; the depth of types is below
the first argument. -/
def markFull (ty : Types) : Nat → Nat → Used → Used
  | 0, _, u => u
  | n + 1, t, u =>
    match ty t with
    | .struct ms => ms.zipIdx.foldl (fun u m => markFull ty n m.1 (mark u t m.2)) u
    | .arr e => markFull ty n e u
    | _ => u

/-- The loops of `MarkMembersAsLiveForExtract` and `MarkMembersAsLiveForAccessChain`,
eliminate_dead_members_pass.cpp:194-216, 239-265. The indices are their values. -/
def markPath (ty : Types) : List Nat → Nat → Used → Used
  | [], _, u => u
  | i :: p, t, u =>
    match ty t with
    | .struct ms => markPath ty p (ms.getD i 0) (mark u t i)
    | .arr e => markPath ty p e u
    | .vec e => markPath ty p e u
    | .leaf => u

/-- Instructions of functions, with the types asked about: of the object of a store or return, of
the pointee of a copy, chain or array length, of the composite of an extract or insert; `other`: the
types of the result and of the operands; `untyped`: an access chain on an untyped pointer, which has
the structure as an operand, and `ts` as the types of its result and operands. -/
inductive Inst where
  | store (t : Nat)
  | copyMemory (t : Nat)
  | extract (t : Nat) (path : List Nat)
  | chain (t : Nat) (path : List Nat)
  | ptrChain (t : Nat) (elem : Nat) (path : List Nat)
  | ret (t : Nat)
  | arrayLength (t i : Nat)
  | load (t : Nat)
  | insert (t : Nat) (path : List Nat)
  | construct (t : Nat)
  | other (ts : List Nat)
  | untyped (s : Nat) (path : List Nat) (ts : List Nat)

/-- `FindLiveMembers` for an instruction, eliminate_dead_members_pass.cpp:91-130, with
`MarkStructOperandsAsFullyUsed`, 697-709. -/
def markInst (ty : Types) (n : Nat) (u : Used) : Inst → Used
  | .store t => markFull ty n t u
  | .copyMemory t => markFull ty n t u
  | .extract t p => markPath ty p t u
  | .chain t p => markPath ty p t u
  | .ptrChain t _ p => markPath ty p t u
  | .ret t => markFull ty n t u
  | .arrayLength t i => mark u t i
  | .load _ => u
  | .insert _ _ => u
  | .construct _ => u
  | .other ts => ts.foldl (fun u t => markFull ty n t u) u
  | .untyped _ _ ts => ts.foldl (fun u t => markFull ty n t u) u

/-- Global instructions the pass looks at: a variable with its pointee type, an extract as a
specialization constant, a type of pointers with its pointee type. -/
inductive Global where
  | inOut (t : Nat)
  | storageBuffer (t : Nat)
  | otherVar (t : Nat)
  | specExtract (t : Nat) (path : List Nat)
  | physicalPtr (t : Nat)

/-- The loop over types and values, eliminate_dead_members_pass.cpp:42-79. -/
def markGlobal (ty : Types) (n : Nat) (u : Used) : Global → Used
  | .inOut t => markFull ty n t u
  | .storageBuffer t => markFull ty n t u
  | .otherVar _ => u
  | .specExtract t p => markPath ty p t u
  | .physicalPtr t => markFull ty n t u

structure Mod where
  ty : Types
  depth : Nat
  globals : List Global
  insts : List Inst

/-- `FindLiveMembers`, eliminate_dead_members_pass.cpp:39-84. -/
def findLive (m : Mod) : Used :=
  m.insts.foldl (markInst m.ty m.depth) (m.globals.foldl (markGlobal m.ty m.depth) fun _ => [])

/-- `UpdateOpTypeStruct`, eliminate_dead_members_pass.cpp:357-373. -/
def newTypes (ty : Types) (u : Used) : Types := fun t =>
  match ty t with
  | .struct ms => if (u t).length = ms.length then .struct ms else .struct ((u t).map fun i => ms.getD i 0)
  | d => d

/-- `GetNewMemberIndex`, eliminate_dead_members_pass.cpp:539-553; `none`: `kRemovedMember`. Each
structure has an entry in the map, since `UpdateOpTypeStruct` makes one, and no other type has. -/
def newIdx (ty : Types) (u : Used) (t i : Nat) : Option Nat :=
  match ty t with
  | .struct _ => if i ∈ u t then some ((u t).idxOf i) else none
  | _ => some i

/-- `UpdateOpMemberNameOrDecorate`, eliminate_dead_members_pass.cpp:375-399: the new index, `none`
when the instruction is removed. -/
def updMember (ty : Types) (u : Used) (t i : Nat) : Option Nat := newIdx ty u t i

/-- `UpdateOpGroupMemberDecorate`, eliminate_dead_members_pass.cpp:401-440: the targets. -/
def updGroup (ty : Types) (u : Used) (l : List (Nat × Nat)) : List (Nat × Nat) :=
  l.filterMap fun x => (newIdx ty u x.1 x.2).map fun k => (x.1, k)

/-- `UpdateConstantComposite`, eliminate_dead_members_pass.cpp:442-461. -/
def updConstruct {α : Type} (ty : Types) (u : Used) (t : Nat) (l : List α) : List α :=
  l.zipIdx.filterMap fun x => (newIdx ty u t x.2).map fun _ => x.1

/-- The loops of `UpdateAccessChain`, `UpdateCompsiteExtract` and `UpdateCompositeInsert`,
eliminate_dead_members_pass.cpp:487-529, 573-604, 633-668: the new indices; `none` when a member is
removed (an assertion in the first two). The types have already been rewritten. -/
def updPath (ty : Types) (u : Used) : List Nat → Nat → Option (List Nat)
  | [], _ => some []
  | i :: p, t =>
    match newIdx ty u t i with
    | none => none
    | some k =>
      match newTypes ty u t with
      | .struct ms => (updPath ty u p (ms.getD k 0)).map (k :: ·)
      | .arr e => (updPath ty u p e).map (k :: ·)
      | .vec e => (updPath ty u p e).map (k :: ·)
      | .leaf => none

/-- The second loop of `RemoveDeadMembers`, eliminate_dead_members_pass.cpp:300-354, for the
instructions of functions: `none` when the instruction is removed. Assertions that fail leave the
path as it was. `UpdateOpArrayLength`: 677-695. -/
def updInst (ty : Types) (u : Used) : Inst → Option Inst
  | .extract t p => some (.extract t ((updPath ty u p t).getD p))
  | .chain t p => some (.chain t ((updPath ty u p t).getD p))
  | .ptrChain t e p => some (.ptrChain t e ((updPath ty u p t).getD p))
  | .insert t p => (updPath ty u p t).map (.insert t)
  | .arrayLength t i => some (.arrayLength t ((newIdx ty u t i).getD i))
  | i => some i

end Verif.DeadMembers
