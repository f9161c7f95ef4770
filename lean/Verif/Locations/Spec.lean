import Verif.Locations.Model

/-!
# Specification: locations of an interface (C69)

What the interface of an entry point takes up, without the algorithm of the validator. A *slot* is a
component of a location, counted as `4 * location + component`. Scalars and vectors take components,
64 bit ones two for each; arrays take what their elements take, one after the other; matrices and
structures take all of their locations. Variables of different kinds (inputs, outputs with index 0,
outputs with index 1, per patch variables, outputs of different geometry streams, tile images) do not
get in each other's way.
-/

namespace Verif.Locations.Spec

mutual
/-- The number of locations a type takes. An array of unknown length counts as one element. -/
def locs : Ty → Nat
  | .scalar _ => 1
  | .vec is64 n => if is64 && n > 2 then 2 else 1
  | .mat is64 rows cols => (if is64 && rows > 2 then 2 else 1) * cols
  | .arr e len => locs e * len.getD 1
  | .struct _ ms => locsList ms
  | .psb => 1
  | _ => 0
/-- The same for the members of a structure together. -/
def locsList : List Ty → Nat
  | [] => 0
  | t :: ts => locs t + locsList ts
end

/-- Components of the scalars and vectors in a type; 0 for matrices and structures. -/
def width : Ty → Nat
  | .scalar is64 => if is64 then 2 else 1
  | .vec is64 n => (if is64 then 2 else 1) * n
  | .arr e _ => width e
  | .psb => 2
  | _ => 0

/-- The slots a type takes from location 0 on, if its component is `c`. -/
def uses : Ty → Nat → Nat → Prop
  | .scalar is64, c, k => c ≤ k ∧ k < c + (if is64 then 2 else 1)
  | .vec is64 n, c, k => c ≤ k ∧ k < c + (if is64 then 2 else 1) * n
  | .psb, c, k => c ≤ k ∧ k < c + 2
  | .mat is64 rows cols, _, k => k < 4 * locs (.mat is64 rows cols)
  | .struct ds ms, _, k => k < 4 * locs (.struct ds ms)
  | .arr e len, c, k => ∃ i, i < len.getD 1 ∧ ∃ j, uses e c j ∧ k = 4 * (locs e * i) + j
  | _, _, _ => False

mutual
/-- Types that may be given a location: at least one element in each array, vectors and columns of
one to four components, no locations inside. -/
def Plain : Ty → Prop
  | .scalar _ => True
  | .vec _ n => 1 ≤ n ∧ n ≤ 4
  | .mat _ rows _ => 1 ≤ rows ∧ rows ≤ 4
  | .arr e len => 1 ≤ len.getD 1 ∧ Plain e
  | .struct decs ms => decs.any (·.2.isLocation) = false ∧ PlainList ms
  | .psb => True
  | _ => False
/-- The same for all members of a structure. -/
def PlainList : List Ty → Prop
  | [] => True
  | t :: ts => Plain t ∧ PlainList ts
end

/-- Something at a location: a variable, or a member of a block. -/
structure Placement where
  key : Key
  ty : Ty
  loc : Nat
  comp : Nat
  member : Bool

/-- A placement takes a slot. -/
def Placement.takes (p : Placement) (s : Nat) : Prop := ∃ k, uses p.ty p.comp k ∧ s = 4 * p.loc + k

/-- The Location of a variable. -/
def locationOf (ds : List Dec) : Option Nat :=
  ds.findSome? fun | .location n => some n | _ => none

/-- The Component of a variable, 0 if it has none. -/
def componentOf (ds : List Dec) : Nat :=
  (ds.findSome? fun | .component n => some n | _ => none).getD 0

/-- The Stream of a variable, 0 if it has none. -/
def streamOf (ds : List Dec) : Nat :=
  (ds.findSome? fun | .stream n => some n | _ => none).getD 0

/-- The Location of member `i`. -/
def memberLocation (ds : List (Option Nat × Dec)) (i : Nat) : Option Nat :=
  ds.findSome? fun | (some j, .location n) => if j = i then some n else none | _ => none

/-- The Component of member `i`, 0 if it has none. -/
def memberComponent (ds : List (Option Nat × Dec)) (i : Nat) : Nat :=
  (ds.findSome? fun
    | (some j, .component n) => if j = i then some n else none | _ => none).getD 0

/-- The outermost array of the variable is one over the vertices, and so does not count. -/
def perVertex (exec : Exec) (v : Var) : Bool :=
  match exec, v.cls with
  | .tessControl, _ => .patch ∉ v.decs
  | .tessEval, .input => .patch ∉ v.decs
  | .geometry, .input => true
  | .fragment, .input => .perVertex ∈ v.decs
  | _, _ => false

/-- The type of a variable as far as locations go. -/
def carried (exec : Exec) (v : Var) : Ty :=
  match v.ty with
  | .arr e n => if perVertex exec v then e else .arr e n
  | .rarr e => if perVertex exec v then e else .rarr e
  | t => t

/-- The kind of a variable. -/
def keyOf (exec : Exec) (streams : Bool) (v : Var) (index1 : Bool) : Key :=
  if .patch ∈ v.decs then .patch index1
  else if exec = .geometry ∧ streams = true ∧ v.cls = .output then .stream (streamOf v.decs) index1
  else if v.cls = .input then .input
  else .output index1

/-- The members of a block, from member `i` on. -/
def membersPlaced (k : Key) (ds : List (Option Nat × Dec)) : List Ty → Nat → List Placement
  | [], _ => []
  | t :: ts, i =>
    match memberLocation ds i with
    | some l => ⟨k, t, l, memberComponent ds i, true⟩ :: membersPlaced k ds ts (i + 1)
    | none => membersPlaced k ds ts (i + 1)

/-- A structure of built-ins. -/
def builtInStruct : Ty → Bool
  | .struct ds _ => ds.any (·.2 = .builtIn)
  | _ => false

/-- What an input or output variable places: itself, or the members of its block. -/
def placed (exec : Exec) (streams : Bool) (v : Var) : List Placement :=
  if .builtIn ∈ v.decs ∨ builtInStruct (carried exec v) = true then []
  else
    match locationOf v.decs with
    | some l =>
      [⟨keyOf exec streams v (decide (.index 1 ∈ v.decs)), carried exec v, l, componentOf v.decs, false⟩]
    | none =>
      match carried exec v with
      | .struct ds ms => membersPlaced (keyOf exec streams v false) ds ms 0
      | _ => []

/-- What a variable places. -/
def placedBy (exec : Exec) (streams : Bool) (v : Var) : List Placement :=
  match v.cls with
  | .other => []
  | .tile =>
    match locationOf v.decs with
    | some l => [⟨.tile, .scalar false, l, 0, false⟩]
    | none => []
  | _ => placed exec streams v

/-- The variables of an interface, each once. -/
def once : List Var → List Nat → List Var
  | [], _ => []
  | v :: vs, seen => if v.cls = .other ∨ v.id ∈ seen then once vs seen else v :: once vs (v.id :: seen)

/-- All that the interface of an entry point places. -/
def placements (ep : Entry) : List Placement :=
  (once ep.vars []).flatMap (placedBy ep.exec ep.streams)

/-- No two of them take the same slot, below `bound`. -/
def Apart (bound : Nat) (ps : List Placement) : Prop :=
  ps.Pairwise fun p q => p.key = q.key → ∀ s, s < bound → ¬ (p.takes s ∧ q.takes s)

/-- No two of them take the same slot. -/
def AllApart (ps : List Placement) : Prop :=
  ps.Pairwise fun p q => p.key = q.key → ∀ s, ¬ (p.takes s ∧ q.takes s)

/-- What is checked elsewhere in the validator: two decorations of the same kind on a variable agree
(validate_decorations.cpp), components are at most 3, and types can have locations. Numbers are small
enough not to overflow. -/
structure Fits (p : Placement) : Prop where
  plain : Plain p.ty
  comp : p.comp ≤ 3
  small : p.loc + locs p.ty < 2 ^ 29

/-- Decorations of the same kind on a variable agree. -/
def Agree (v : Var) : Prop :=
  (∀ m n, .location m ∈ v.decs → .location n ∈ v.decs → m = n) ∧
  (∀ m n, .component m ∈ v.decs → .component n ∈ v.decs → m = n) ∧
  (∀ m n, .index m ∈ v.decs → .index n ∈ v.decs → m = n)

/-- The shapes for which every slot is looked at: a variable is no array of arrays of scalars or
vectors; a member is no array of scalars or vectors of four components or more. -/
def Shaped (p : Placement) : Prop :=
  match p.ty, p.member with
  | .arr (.arr e _) _, false => width e = 0
  | .arr e _, true => width e < 4
  | _, _ => True

/-- A variable has the decorations it needs: indices are for outputs of fragment shaders only;
arrays over vertices are arrays in fragment shaders; and either it or, if it is a block, every member
has a location. -/
def Placed (exec : Exec) (v : Var) : Prop :=
  v.cls = .tile ∨
  ((∀ n, .index n ∈ v.decs → exec = .fragment ∧ v.cls = .output) ∧
   (.perVertex ∈ v.decs → exec = .fragment ∧ v.ty.isAnyArr = true) ∧
   (.builtIn ∈ v.decs ∨ builtInStruct (carried exec v) = true ∨ (locationOf v.decs).isSome = true ∨
    ∃ ds ms, carried exec v = .struct ds ms ∧ (none, .block) ∈ ds ∧
      (∀ i, i < ms.length → ∃ n, (some i, .location n) ∈ ds) ∧
      (∀ i m n, (i, .location m) ∈ ds → (i, .location n) ∈ ds → m = n) ∧
      (∀ i m n, (i, .component m) ∈ ds → (i, .component n) ∈ ds → m = n)))

mutual
/-- Types that can be given a location, as far as the validator looks: not into arrays. -/
def Holds : Ty → Prop
  | .struct decs ms => decs.any (·.2.isLocation) = false ∧ HoldsList ms
  | .rarr _ => False
  | .other => False
  | _ => True
/-- The same for all members of a structure. -/
def HoldsList : List Ty → Prop
  | [] => True
  | t :: ts => Holds t ∧ HoldsList ts
end

/-- The same for something at a location; of a variable that is an array, for the element. -/
def Placement.Holds (p : Placement) : Prop :=
  match p.ty, p.member with
  | .arr e _, false => Spec.Holds e
  | t, _ => Spec.Holds t

/-- A variable needs no location, has one, or is a block all of whose members have one. -/
def Located (exec : Exec) (v : Var) : Prop :=
  .builtIn ∈ v.decs ∨ builtInStruct (carried exec v) = true ∨ (locationOf v.decs).isSome = true ∨
    ∃ ds ms, carried exec v = .struct ds ms ∧ (∃ m, (m, .block) ∈ ds) ∧
      ∀ i, i < ms.length → (memberLocation ds i).isSome = true

end Verif.Locations.Spec
