/-!
# Private variables made local

Model of `PrivateToLocalPass` (/repo/source/opt/private_to_local_pass.cpp).
Simplifications:
* names, decorations and debug information are left out: as uses they are always accepted (lines 160-162, 175-178)
  and `FindLocalFunction` does not look at them (lines 95-97);
* pointer types are reduced to their storage class; new types are always found (`GetNewType`, lines 143-154, fails
  only when the ids run out);
* recursions through access chains are given fuel `n`. Without fuel `valid` refuses, so nothing is moved.
-/
namespace Verif.PrivLocal

abbrev Id := Nat

inductive Class where
  | priv
  | function
  /-- Output, Uniform, Workgroup and so on -/
  | other (c : Nat)
  deriving DecidableEq

/-- Instructions of blocks. -/
inductive Inst where
  | load (r p : Id)
  /-- OpImageTexelPointer, taken to read the image -/
  | texel (r p : Id)
  | store (p x : Id)
  /-- OpAccessChain -/
  | chain (r b : Id) (ix : List Id)
  /-- OpInBoundsAccessChain -/
  | inChain (r b : Id) (ix : List Id)
  /-- OpCopyObject -/
  | copy (r x : Id)
  /-- OpCopyMemory -/
  | copyMem (p q : Id)
  | call (r f : Id) (xs : List Id)
  /-- instructions that compute a value -/
  | op (r : Id) (o : Nat) (xs : List Id)
  /-- an effect that can be seen from outside -/
  | emit (x : Id)
  deriving DecidableEq

inductive Term where
  | br (l : Id)
  | cond (x l m : Id)
  | ret (x : Option Id)
  deriving DecidableEq

/-- A phi: the result, and the pairs of a value and a predecessor. -/
structure Phi where
  r : Id
  args : List (Id × Id)
  deriving DecidableEq

structure Block where
  label : Id
  phis : List Phi
  body : List Inst
  term : Term
  deriving DecidableEq

/-- A variable with its initializer. -/
structure Var where
  id : Id
  cls : Class
  init : Option Id
  deriving DecidableEq

structure Fn where
  id : Id
  params : List Id
  locals : List Var
  blocks : List Block
  deriving DecidableEq

structure Mod where
  /-- the capability Addresses is declared -/
  addresses : Bool
  /-- the version is at least 1.4 -/
  v14 : Bool
  globals : List Var
  fns : List Fn
  /-- the functions of the entry points with the interfaces -/
  entries : List (Id × List Id)
  /-- storage class of the type of the id, if that is a pointer type -/
  cls : Id → Option Class

/-- What can use an id inside of a block. -/
inductive Item where
  | inst (i : Inst)
  | phi (p : Phi)
  | term (t : Term)
  | var (v : Var)
  deriving DecidableEq

/-- The ids that the instruction uses. -/
def Item.ops : Item → List Id
  | .inst (.load _ p) => [p]
  | .inst (.texel _ p) => [p]
  | .inst (.store p x) => [p, x]
  | .inst (.chain _ b ix) => b :: ix
  | .inst (.inChain _ b ix) => b :: ix
  | .inst (.copy _ x) => [x]
  | .inst (.copyMem p q) => [p, q]
  | .inst (.call _ f xs) => f :: xs
  | .inst (.op _ _ xs) => xs
  | .inst (.emit x) => [x]
  | .phi p => p.args.map (·.1)
  | .term (.br l) => [l]
  | .term (.cond x l m) => [x, l, m]
  | .term (.ret x) => x.toList
  | .var v => v.init.toList

def Block.items (b : Block) : List Item := b.phis.map .phi ++ b.body.map .inst ++ [.term b.term]

def Fn.items (f : Fn) : List Item := f.locals.map .var ++ f.blocks.flatMap Block.items

/-- All instructions in blocks, with the functions they are in. -/
def Mod.items (m : Mod) : List (Id × Item) := m.fns.flatMap fun f => f.items.map fun i => (f.id, i)

/-- `ForEachUser` (def_use_manager.cpp:133-143), without the users outside of blocks. -/
def Mod.users (m : Mod) (i : Id) : List (Id × Item) := m.items.filter fun u => decide (i ∈ u.2.ops)

/-- `IsValidUse` (private_to_local_pass.cpp:156-180). -/
def Mod.valid (m : Mod) : Nat → Item → Id → Bool
  | 0, _, _ => false
  | _ + 1, .inst (.load _ _), _ => true
  | _ + 1, .inst (.texel _ _), _ => true
  | _ + 1, .inst (.store _ x), v => x != v
  | n + 1, .inst (.chain r _ _), _ => (m.users r).all fun u => m.valid n u.2 r
  | _ + 1, _, _ => false

/-- The body of the lambda of `FindLocalFunction` (private_to_local_pass.cpp:93-111). -/
def Mod.find (m : Mod) (n : Nat) (v : Id) (s : Bool × Option Id) (u : Id × Item) : Bool × Option Id :=
  if m.valid n u.2 v then
    if s.1 = false then (true, some u.1)
    else if s.2 ≠ some u.1 then (s.1, none) else s
  else (true, none)

/-- `FindLocalFunction` (private_to_local_pass.cpp:88-113). -/
def Mod.local (m : Mod) (n : Nat) (v : Id) : Option Id :=
  ((m.users v).foldl (m.find n v) (false, none)).2

/-- The first loop of `Process` (private_to_local_pass.cpp:41-55). -/
def Mod.toMove (m : Mod) (n : Nat) : List (Var × Id) :=
  m.globals.filterMap fun v => if v.cls = .priv then (m.local n v.id).map fun f => (v, f) else none

/-- `UpdateUses` and `UpdateUse` (private_to_local_pass.cpp:182-235): storage classes of types. -/
def Mod.updateUses (m : Mod) : Nat → Id → (Id → Option Class) → Id → Option Class
  | 0, _, c => c
  | n + 1, i, c => (m.users i).foldl (fun c u => match u.2 with
    | .inst (.chain r _ _) => m.updateUses n r (fun j => if j = r then some .function else c j)
    | _ => c) c

/-- Place the variable at the start of the first block (private_to_local_pass.cpp:134-137). -/
def place (v : Var) (f : Id) (g : Fn) : Fn :=
  if g.id = f then { g with locals := { v with cls := .function } :: g.locals } else g

/-- `MoveVariable` (private_to_local_pass.cpp:115-141). -/
def Mod.move (n : Nat) (m : Mod) (p : Var × Id) : Mod :=
  { m with
    globals := m.globals.filter fun w => decide (w.id ≠ p.1.id)
    fns := m.fns.map (place p.1 p.2)
    cls := m.updateUses n p.1.id fun j => if j = p.1.id then some .function else m.cls j }

/-- The interfaces (private_to_local_pass.cpp:65-83). -/
def Mod.trim (m : Mod) (moved : List Id) : Mod :=
  if m.v14 then { m with entries := m.entries.map fun e => (e.1, e.2.filter fun i => decide (i ∉ moved)) } else m

/-- `Process` (private_to_local_pass.cpp:31-86). -/
def Mod.run (n : Nat) (m : Mod) : Mod :=
  if m.addresses then m
  else ((m.toMove n).foldl (Mod.move n) m).trim ((m.toMove n).map (·.1.id))

end Verif.PrivLocal
