import Verif.CombineAccess.Model
/-
What access chains mean, apart from the pass: an address is a number of bytes, each index
adds to it.
-/
namespace Verif.CombineAccess.Spec

open Verif.CombineAccess

/-- How types are laid out in memory: their size and the offsets of the members. -/
structure Layout where
  size : Ty → Int
  off : List Ty → Nat → Int

/-- Values of the ids at some moment of a run: the bits of integers, the addresses of
pointers. -/
structure Vals where
  bits : Id → BitVec 32
  addr : Id → Int

/-- The number an index stands for. -/
def num (m : Mod) (V : Vals) (i : Id) : Int :=
  if m.sgn i then (V.bits i).toInt else (V.bits i).toNat

/-- Follow indices from a type and an address. No index leads into a scalar or to a member
which is not there. -/
def walk (L : Layout) (m : Mod) (V : Vals) : Ty → Int → List Id → Option (Ty × Int)
  | t, a, [] => some (t, a)
  | .struct ms, a, i :: is =>
    if num m V i < 0 then none
    else
      match ms[(num m V i).toNat]? with
      | none => none
      | some t => walk L m V t (a + L.off ms (num m V i).toNat) is
  | .arr e s, a, i :: is => walk L m V e (a + num m V i * s) is
  | .leaf _, _, _ :: _ => none

/-- The distance between elements, for the element operand of a pointer access chain: the
`ArrayStride` of the type of the base, or the size of what it points to. -/
def step (L : Layout) (m : Mod) (b : Id) : Int :=
  if m.stride b ≠ 0 then m.stride b else L.size (m.pty b)

/-- Where an access chain leads. -/
def locate (L : Layout) (m : Mod) (V : Vals) (c : Chain) : Option (Ty × Int) :=
  if c.ptr then
    match c.idx with
    | [] => none
    | e :: rest => walk L m V (m.pty c.base) (V.addr c.base + num m V e * step L m c.base) rest
  else walk L m V (m.pty c.base) (V.addr c.base) c.idx

/-- The values are those the instructions of the module compute. -/
structure Right (L : Layout) (m : Mod) (V : Vals) : Prop where
  cst : ∀ x c, m.cst x = some c → V.bits x = c
  chain : ∀ d c, m.defn d = some (.chain c) → locate L m V c = some (m.pty d, V.addr d)
  copy : ∀ d s, m.defn d = some (.copy s) → V.addr d = V.addr s
  add : ∀ d a b, m.defn d = some (.add a b) → V.bits d = V.bits a + V.bits b

/-- Ids from `next` on are not in use. -/
structure Fresh (m : Mod) : Prop where
  defn : ∀ x, m.next ≤ x → m.defn x = none
  cst : ∀ x, m.next ≤ x → m.cst x = none
  chain : ∀ d c, m.defn d = some (.chain c) → ∀ i ∈ c.idx, i < m.next
  add : ∀ d a b, m.defn d = some (.add a b) → a < m.next ∧ b < m.next

/-- The rule for types: a member of a structure is selected by a constant, and the indices
lead to some type. -/
def reach (m : Mod) : Ty → List Id → Option Ty
  | t, [] => some t
  | .struct ms, i :: is =>
    match m.cst i with
    | none => none
    | some c =>
      match ms[c.toNat]? with
      | none => none
      | some t => reach m t is
  | .arr e _, _ :: is => reach m e is
  | .leaf _, _ :: _ => none

/-- The access chains of a valid module. -/
def Typed (m : Mod) : Prop :=
  ∀ d c, m.defn d = some (.chain c) →
    (c.ptr = true → c.idx ≠ []) ∧
    reach m (m.pty c.base) (if c.ptr then c.idx.drop 1 else c.idx) = some (m.pty d)

/-- A number the type of `i` can hold. -/
def Fits (m : Mod) (i : Id) (v : Int) : Prop :=
  if m.sgn i then -2147483648 ≤ v ∧ v < 2147483648 else 0 ≤ v ∧ v < 4294967296

/-- What combining with a pointer access chain `d` needs. The element operand of `d` steps
over elements of the array the chain before it ends in: that chain ends in an index of an
array with elements as far apart as `d` steps, or it is a pointer access chain with only an
element operand and steps as far. The sum of the two is a number the index can hold. -/
def Steps (L : Layout) (m : Mod) (V : Vals) (d : Id) : Prop :=
  ∀ c f, m.defn d = some (.chain c) → c.ptr = true → m.defn c.base = some (.chain f) →
    (f.idx = [] → step L m f.base = step L m c.base) ∧
    ∀ init l e rest, f.idx = init ++ [l] → c.idx = e :: rest →
      Fits m l (num m V l + num m V e) ∧
      (f.ptr = true → init = [] → step L m f.base = step L m c.base) ∧
      (f.ptr = false ∨ init ≠ [] →
        ∃ t a, locate L m V { f with idx := init } = some (.arr t (step L m c.base), a))

/-- `Steps` for the types alone: the chain before a pointer access chain ends in an index of
an array, or has only an element operand. -/
def EndsInArray (m : Mod) (d : Id) : Prop :=
  ∀ c f, m.defn d = some (.chain c) → c.ptr = true → m.defn c.base = some (.chain f) →
    ∀ init l, f.idx = init ++ [l] → f.ptr = false ∨ init ≠ [] →
      ∃ t s, reach m (m.pty f.base) (if f.ptr then init.drop 1 else init) = some (.arr t s)

/-- Logical addressing: no pointer access chains. -/
def Logical (m : Mod) : Prop := ∀ d c, m.defn d = some (.chain c) → c.ptr = false

/-- The access chain `d` starts from one that is not an access chain. -/
def Flat (m : Mod) (d : Id) : Prop :=
  ∀ c, m.defn d = some (.chain c) → ∀ f, m.defn c.base ≠ some (.chain f)

/-- All indices are 32-bit integers and no pointer type has a stride. -/
def Plain (m : Mod) : Prop :=
  (∀ x, m.wide x = false) ∧ ∀ x, m.stride x = 0

end Verif.CombineAccess.Spec
