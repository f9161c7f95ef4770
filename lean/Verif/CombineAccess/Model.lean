/-
Model of the combining of access chains: `source/opt/combine_access_chains.cpp`.

A pointer is an address together with the type it points to. The pass looks at one
access chain at a time. It replaces the chain it starts from, when that is an access
chain too, by the base of that chain.
-/
namespace Verif.CombineAccess

abbrev Id := Nat

/-- Types as `TypeManager::GetMemberType` sees them (`source/opt/type_manager.cpp:1211-1230`).
Arrays, run-time arrays, vectors and matrices are all `arr`: each index steps by `stride`
bytes (the `ArrayStride` of the type, or the size of a component). -/
inductive Ty where
  | leaf (size : Nat)
  | arr (elem : Ty) (stride : Int)
  | struct (ms : List Ty)

/-- An access chain: `OpAccessChain`, `OpInBoundsAccessChain`, `OpPtrAccessChain` or
`OpInBoundsPtrAccessChain`. `idx` has all operands after the base, for a pointer access chain
the element operand first. -/
structure Chain where
  ptr : Bool
  inb : Bool
  base : Id
  idx : List Id
deriving DecidableEq

/-- What defines an id: an access chain, `OpCopyObject`, the `OpIAdd` the pass adds, or
something else. -/
inductive Def where
  | chain (c : Chain)
  | copy (s : Id)
  | add (a b : Id)
  | other
deriving DecidableEq

/-- The part of the module the pass looks at.
`cst`: the 32-bit value of an `OpConstant`. `sgn`: the integer type is signed.
`wide`: the type is not a 32-bit integer. `pty`: the type a pointer points to.
`stride`: the `ArrayStride` of the type of a pointer, 0 when there is none. -/
structure Mod where
  defn : Id → Option Def
  cst : Id → Option (BitVec 32)
  sgn : Id → Bool
  wide : Id → Bool
  pty : Id → Ty
  stride : Id → Nat
  next : Id

/-- `Has64BitIndices`, `combine_access_chains.cpp:301-311`. -/
def has64 (m : Mod) (c : Chain) : Bool := c.idx.any m.wide

/-- `TypeManager::GetMemberType`, `type_manager.cpp:1211-1230`. `none` where the code asserts
or reads beyond the list of members. -/
def memberTy : Ty → List Nat → Option Ty
  | t, [] => some t
  | .struct ms, i :: is => (ms[i]?).bind fun t => memberTy t is
  | .arr e _, _ :: is => memberTy e is
  | .leaf _, _ :: _ => none

/-- `GetIndexedType`, `combine_access_chains.cpp:104-134`. An index which is not a constant
counts as 0. -/
def indexedTy (m : Mod) (c : Chain) : Option Ty :=
  memberTy (m.pty c.base)
    ((if c.ptr then c.idx.drop 1 else c.idx).map fun i =>
      match m.cst i with
      | some v => v.toNat
      | none => 0)

/-- `type->AsStruct()`. -/
def isStruct : Option Ty → Bool
  | some (.struct _) => true
  | _ => false

/-- `CombineIndices`, `combine_access_chains.cpp:136-186`. The result has the new operand and
the module with its definition; `none` for no change. A new constant gets a new id (the code
takes an existing one when there is one). -/
def combineIndices (m : Mod) (feeder : Chain) (l e : Id) : Option (Mod × Id) :=
  let n := m.next
  match m.cst l, m.cst e with
  | some a, some b =>
    some ({ m with
              cst := fun x => if x = n then some (a + b) else m.cst x
              sgn := fun x => if x = n then m.sgn l else m.sgn x
              wide := fun x => if x = n then false else m.wide x
              next := n + 1 }, n)
  | _, _ =>
    if !isStruct (indexedTy m feeder) || (feeder.ptr && feeder.idx.length == 1) then
      some ({ m with
                defn := fun x => if x = n then some (.add l e) else m.defn x
                sgn := fun x => if x = n then m.sgn l else m.sgn x
                wide := fun x => if x = n then false else m.wide x
                next := n + 1 }, n)
    else none

/-- `UpdateOpcode`, `combine_access_chains.cpp:280-294`: the new chain is a pointer access
chain as the feeder is, and in bounds when both are. -/
def newChain (feeder inst : Chain) (idx : List Id) : Chain :=
  ⟨feeder.ptr, feeder.inb && inst.inb, feeder.base, idx⟩

/-- Replace the definition of an id. -/
def setDef (m : Mod) (d : Id) (x : Def) : Mod where
  defn := fun y => if y = d then some x else m.defn y
  cst := m.cst
  sgn := m.sgn
  wide := m.wide
  pty := m.pty
  stride := m.stride
  next := m.next

/-- `CreateNewInputOperands` and the end of `CombineAccessChain`,
`combine_access_chains.cpp:188-216` and 267-276; `l` is the last operand of the feeder and
`init` the operands between its base and `l`. -/
def append (m : Mod) (d : Id) (feeder inst : Chain) (init : List Id) (l : Id) : Mod :=
  if inst.ptr then
    match inst.idx with
    | [] => m
    | e :: rest =>
      match combineIndices m feeder l e with
      | none => m
      | some (m', n) =>
        setDef m' d (.chain (newChain feeder inst (init ++ n :: rest)))
  else
    setDef m d (.chain (newChain feeder inst (init ++ l :: inst.idx)))

/-- `CombineAccessChain`, `combine_access_chains.cpp:218-278`. -/
def combine (m : Mod) (d : Id) : Mod :=
  match m.defn d with
  | some (.chain inst) =>
    match m.defn inst.base with
    | some (.chain feeder) =>
      if has64 m inst || has64 m feeder then m
      else if m.stride inst.base ≠ 0 then m
      else
        match feeder.idx.getLast? with
        | none => setDef m d (.chain { inst with base := feeder.base })
        | some l =>
          if inst.idx = [] then setDef m d (.copy inst.base)
          else append m d feeder inst feeder.idx.dropLast l
    | _ => m
  | _ => m

/-- `ProcessFunction`, `combine_access_chains.cpp:38-72`: the instructions one after the
other, in reverse post order. -/
def process : Mod → List Id → Mod
  | m, [] => m
  | m, d :: ds => process (combine m d) ds

end Verif.CombineAccess
