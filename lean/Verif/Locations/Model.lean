/-!
# Model: checking the locations of an entry point's interface (C69)

Models `NumConsumedLocations`, `NumConsumedComponents`, `GetLocationsForVariable` and
`ValidateLocations` of source/val/validate_interfaces.cpp:145-661.

Simplifications, for the whole file:
* a type is the tree of its instructions instead of an id (SPIR-V types that can be in an interface
  have no cycles);
* a matrix carries the width and the number of components of its columns instead of a column type;
* `std::unordered_set<uint32_t>` is a list, of which only the members matter;
* the texts of the messages are left out: an outcome is `ok`, `conflict` (the messages with VUID
  8721, 8722 and 8723) or `bad` (every other message).
-/

namespace Verif.Locations

/-- Arithmetic of `uint32_t`. -/
def u32 (n : Nat) : Nat := n % 2 ^ 32

/-- The decorations looked at (validate_interfaces.cpp:308-351, 372-379, 448-471, 593-637). -/
inductive Dec where
  | location (n : Nat)
  | component (n : Nat)
  | index (n : Nat)
  | stream (n : Nat)
  | builtIn
  | patch
  | perTask
  | perVertex
  | block
  | other
  deriving DecidableEq, Repr

/-- The types told apart (validate_interfaces.cpp:152-224, 233-266). `scalar` is `OpTypeInt` and
`OpTypeFloat`, with whether the width is 64; `vec` is `OpTypeVector` and `OpTypeVectorIdEXT`; `arr`
has the length when `EvalInt32IfConst` finds one; `struct` has the decorations of the type
(`id_decorations`), each with the member it is on if it is on one; `psb` is a pointer into the
`PhysicalStorageBuffer` class in a module with physical 64 bit addresses for it; `other` is all the
rest. -/
inductive Ty where
  | scalar (is64 : Bool)
  | vec (is64 : Bool) (n : Nat)
  | mat (is64 : Bool) (rows cols : Nat)
  | arr (elem : Ty) (len : Option Nat)
  | rarr (elem : Ty)
  | struct (decs : List (Option Nat × Dec)) (members : List Ty)
  | psb
  | other

/-- The part of `NumConsumedLocations` for vectors (validate_interfaces.cpp:159-170). -/
def vecLocs (is64 : Bool) (n : Nat) : Nat := if is64 && n > 2 then 2 else 1

/-- `Decoration::dec_type() == Location`. -/
def Dec.isLocation : Dec → Bool
  | .location _ => true
  | _ => false

mutual
/-- `NumConsumedLocations` (validate_interfaces.cpp:149-227): whether it returned `SPV_SUCCESS`, and
what is left in `*num_locations`. The results of the calls at 173 and 180 are not looked at. -/
def Ty.numLocs : Ty → Bool × Nat
  | .scalar _ => (true, 1)
  | .vec is64 n => (true, vecLocs is64 n)
  | .mat is64 rows cols => (true, u32 (vecLocs is64 rows * cols))
  | .arr e len =>
    match len with
    | some n => (true, u32 (e.numLocs.2 * n))
    | none => (true, e.numLocs.2)
  | .struct decs ms => if decs.any (·.2.isLocation) then (false, 0) else numLocsList ms 0
  | .psb => (true, 1)
  | .rarr _ => (false, 0)
  | .other => (false, 0)
/-- The loop over the members of a structure (validate_interfaces.cpp:200-208). -/
def numLocsList : List Ty → Nat → Bool × Nat
  | [], acc => (true, acc)
  | t :: ts, acc => if t.numLocs.1 then numLocsList ts (u32 (acc + t.numLocs.2)) else (false, acc)
end

/-- `NumConsumedComponents` (validate_interfaces.cpp:231-270). -/
def Ty.numComps : Ty → Nat
  | .scalar is64 => if is64 then 2 else 1
  | .vec is64 n => u32 ((if is64 then 2 else 1) * n)
  | .arr e _ => e.numComps
  | .psb => 2
  | _ => 0

/-- Execution models told apart (validate_interfaces.cpp:357-391, 550-559). `MeshNV` is left out:
`ValidateLocations` returns before it gets there. -/
inductive Exec where
  | vertex | tessControl | tessEval | geometry | fragment | other
  deriving DecidableEq, Repr

/-- Storage classes told apart (validate_interfaces.cpp:585-589). -/
inductive Cls where
  | input | output | tile | other
  deriving DecidableEq, Repr

/-- An interface variable: its id, its storage class, the type its type points to, its decorations
in the order of `id_decorations`. -/
structure Var where
  id : Nat
  cls : Cls
  ty : Ty
  decs : List Dec

/-- An entry point: its execution model, whether the module has the capability GeometryStreams, and
its interface operands. -/
structure Entry where
  exec : Exec
  streams : Bool
  vars : List Var

/-- The sets of locations (validate_interfaces.cpp:567-577), by name. The `Bool` is whether the set
is the one for index 1. `tile` is the set of keys of `tile_image_locations`. -/
inductive Key where
  | input
  | output (index1 : Bool)
  | patch (index1 : Bool)
  | stream (n : Nat) (index1 : Bool)
  | tile
  deriving DecidableEq, Repr

/-- The contents of the sets. Location `l` of a tile image is entered as `4 * l`. -/
abbrev Sets := Key → List Nat

/-- What a call comes to. -/
inductive Out (α : Type) where
  | ok (a : α)
  | conflict (slot : Nat)
  | bad
  deriving DecidableEq, Repr

/-- `return error` on errors, else go on. -/
def Out.bind {α β : Type} : Out α → (α → Out β) → Out β
  | .ok a, f => f a
  | .conflict s, _ => .conflict s
  | .bad, _ => .bad

/-- The loops `if (!locs->insert(i).second) return conflict` (validate_interfaces.cpp:433-441,
505-520, 529-537) over the slots `l`, on the set `k`. -/
def mark (k : Key) : List Nat → Sets → Out Sets
  | [], st => .ok st
  | i :: l, st =>
    if i ∈ st k then .conflict i else mark k l (fun k' => if k' = k then i :: st k else st k')

/-- `kMaxLocations` (validate_interfaces.cpp:32). -/
def maxLocations : Nat := 4096 * 4

/-- `for (i = start; i < end; ++i)`. -/
def range (start stop : Nat) : List Nat := List.range' start (stop - start)

/-- The slots from `start` to `end` (validate_interfaces.cpp:424-430 and 525-530). -/
def flatSlots (loc numLocs numComps comp : Nat) : List Nat :=
  if numComps ≠ 0 then range (u32 (loc * 4 + comp)) (u32 (loc * 4 + comp + numComps))
  else range (u32 (loc * 4)) (u32 ((loc + numLocs) * 4))

/-- The loop over the elements of a variable (validate_interfaces.cpp:414-442), from element `i` on,
`left` elements to go. The 64 bit product is never cut off before the loop ends. -/
def varSlots (loc numLocs numComps comp : Nat) : Nat → Nat → List Nat
  | 0, _ => []
  | left + 1, i =>
    if maxLocations ≤ (loc + numLocs * i) * 4 then []
    else flatSlots (loc + numLocs * i) numLocs numComps comp ++
      varSlots loc numLocs numComps comp left (i + 1)

/-- `OpTypeArray`. -/
def Ty.isArr : Ty → Bool
  | .arr _ _ => true
  | _ => false

/-- The slots of a member of a block (validate_interfaces.cpp:494-538). -/
def memberSlots (isArr : Bool) (loc numLocs numComps comp : Nat) : List Nat :=
  if maxLocations ≤ loc * 4 then []
  else if isArr && 1 ≤ numComps && numComps < 4 then
    (range loc (u32 (numLocs + loc))).flatMap fun l =>
      ((range comp (u32 (comp + numComps))).map (l * 4 + ·)).filter (· < maxLocations)
  else flatSlots loc numLocs numComps comp

/-- What the loop over the decorations of the variable gathers (validate_interfaces.cpp:298-305). -/
structure Found where
  location : Option Nat := none
  component : Nat := 0
  index : Option Nat := none
  patch : Bool := false
  perTask : Bool := false
  perVertex : Bool := false

/-- `OpTypeArray` or `OpTypeRuntimeArray`. -/
def Ty.isAnyArr : Ty → Bool
  | .arr _ _ => true
  | .rarr _ => true
  | _ => false

/-- The loop over the decorations of the variable (validate_interfaces.cpp:307-350). `none` stands
for `return SPV_SUCCESS` on a built-in. -/
def scan (isFragment isOutput : Bool) (ty : Ty) : List Dec → Found → Out (Option Found)
  | [], f => .ok (some f)
  | d :: ds, f =>
    match d with
    | .location n => scan isFragment isOutput ty ds { f with location := some n }
    | .component n => scan isFragment isOutput ty ds { f with component := n }
    | .index n =>
      if !isOutput || !isFragment then .bad
      else scan isFragment isOutput ty ds { f with index := some n }
    | .builtIn => .ok none
    | .patch => scan isFragment isOutput ty ds { f with patch := true }
    | .perTask => scan isFragment isOutput ty ds { f with perTask := true }
    | .perVertex =>
      if !isFragment then .bad
      else if !ty.isAnyArr then .bad
      else scan isFragment isOutput ty ds { f with perVertex := true }
    | _ => scan isFragment isOutput ty ds f

/-- `is_arrayed` (validate_interfaces.cpp:355-391). -/
def isArrayed (exec : Exec) (isOutput : Bool) (f : Found) : Bool :=
  match exec with
  | .tessControl => !f.patch
  | .tessEval => !isOutput && !f.patch
  | .geometry => !isOutput
  | .fragment => !isOutput && f.perVertex
  | _ => false

/-- "Unpack arrayness" (validate_interfaces.cpp:394-398). -/
def Ty.unpack (arrayed : Bool) : Ty → Ty
  | .arr e n => if arrayed then e else .arr e n
  | .rarr e => if arrayed then e else .rarr e
  | t => t

/-- `member_locations` and `member_components` (validate_interfaces.cpp:446-472): what is recorded
for each member, `none` if two decorations disagree. -/
def gather : List (Option Nat × Dec) → List (Option Nat × Nat) → List (Option Nat × Nat) →
    Option (List (Option Nat × Nat) × List (Option Nat × Nat))
  | [], ls, cs => some (ls, cs)
  | (m, d) :: ds, ls, cs =>
    match d with
    | .location n =>
      match ls.lookup m with
      | none => gather ds ((m, n) :: ls) cs
      | some n' => if n' ≠ n then none else gather ds ls cs
    | .component n =>
      match cs.lookup m with
      | none => gather ds ls ((m, n) :: cs)
      | some n' => if n' ≠ n then none else gather ds ls cs
    | _ => gather ds ls cs

/-- The loop over the members of a block (validate_interfaces.cpp:474-539), from member `i` on. -/
def markMembers (k : Key) (ls cs : List (Option Nat × Nat)) :
    List Ty → Nat → Sets → Out Sets
  | [], _, st => .ok st
  | t :: ts, i, st =>
    match ls.lookup (some i) with
    | none => .bad
    | some loc =>
      if t.numLocs.1 then
        (mark k (memberSlots t.isArr loc t.numLocs.2 t.numComps ((cs.lookup (some i)).getD 0))
          st).bind (markMembers k ls cs ts (i + 1))
      else .bad

/-- The branch for variables with a location (validate_interfaces.cpp:392-442). -/
def markVar (k0 k1 : Key) (ty : Ty) (loc : Nat) (f : Found) (st : Sets) : Out Sets :=
  let k := if f.index = some 1 then k1 else k0
  match ty with
  | .arr e len =>
    if e.numLocs.1 then
      mark k (varSlots loc e.numLocs.2 e.numComps f.component (len.getD 1) 0) st
    else .bad
  | t =>
    if t.numLocs.1 then mark k (varSlots loc t.numLocs.2 t.numComps f.component 1 0) st else .bad

/-- `GetLocationsForVariable` (validate_interfaces.cpp:275-541), from the unpacking of arrays on. -/
def getRest (ty : Ty) (f : Found) (k0 k1 : Key) (st : Sets) : Out Sets :=
  match ty with
  | .struct decs ms =>
    if decs.any (·.2 = .builtIn) then .ok st
    else
      match f.location with
      | some loc => markVar k0 k1 (.struct decs ms) loc f st
      | none =>
        if decs.any (·.2 = .block) then
          match gather decs [] [] with
          | none => .bad
          | some (ls, cs) => markMembers k0 ls cs ms 0 st
        else .bad
  | t =>
    match f.location with
    | some loc => markVar k0 k1 t loc f st
    | none => .bad

/-- `GetLocationsForVariable` (validate_interfaces.cpp:275-541). The sets it is given are named. -/
def getLocations (exec : Exec) (v : Var) (k0 k1 : Key) (st : Sets) : Out Sets :=
  match scan (exec = .fragment) (v.cls = .output) v.ty v.decs {} with
  | .bad => .bad
  | .conflict s => .conflict s
  | .ok none => .ok st
  | .ok (some f) =>
    getRest (v.ty.unpack (isArrayed exec (v.cls = .output) f)) f k0 k1 st

/-- The first Location of a tile image (validate_interfaces.cpp:593-608). -/
def firstLocation : List Dec → Option Nat
  | [] => none
  | .location n :: _ => some n
  | _ :: ds => firstLocation ds

/-- The first Stream, or 0 (validate_interfaces.cpp:637-643). -/
def firstStream : List Dec → Nat
  | [] => 0
  | .stream n :: _ => n
  | _ :: ds => firstStream ds

/-- The body of the loop of `ValidateLocations` for a variable not seen before
(validate_interfaces.cpp:593-657). -/
def oneVar (exec : Exec) (streams : Bool) (v : Var) (st : Sets) : Out Sets :=
  match v.cls with
  | .other => .ok st
  | .tile =>
    match firstLocation v.decs with
    | some l => mark .tile [4 * l] st
    | none => .ok st
  | c =>
    if .patch ∈ v.decs then getLocations exec v (.patch false) (.patch true) st
    else if exec = .geometry && streams && c = .output then
      getLocations exec v (.stream (firstStream v.decs) false) (.stream (firstStream v.decs) true) st
    else getLocations exec v (if c = .input then .input else .output false) (.output true) st

/-- The loop of `ValidateLocations` (validate_interfaces.cpp:579-658). -/
def loop (exec : Exec) (streams : Bool) : List Var → List Nat → Sets → Out Sets
  | [], _, st => .ok st
  | v :: vs, seen, st =>
    if v.cls = .other then loop exec streams vs seen st
    else if v.id ∈ seen then loop exec streams vs seen st
    else (oneVar exec streams v st).bind (loop exec streams vs (v.id :: seen))

/-- `ValidateLocations` (validate_interfaces.cpp:543-661). -/
def Entry.validate (ep : Entry) : Out Unit :=
  if ep.exec = .other then .ok ()
  else (loop ep.exec ep.streams ep.vars [] (fun _ => [])).bind fun _ => .ok ()

end Verif.Locations
