import Verif.Robust.Model

/-!
# What it means for pointers to stay in bounds

Independent of how indices are clamped: the values of instructions, the memory which a pointer points
to, and the bounds of types.
-/

namespace Verif.Robust.Spec

/-- An execution: the bits of the integers, and the number of elements of each runtime array, which is
given by the variable it is in and the indices of the way to it. -/
structure Env where
  val : Nat → Nat
  runtime : Nat → List Int → Nat

/-- The value of an integer of some width. -/
structure V where
  w : Nat
  bits : Nat
deriving DecidableEq, Repr

/-- Indices are treated as signed. -/
def V.signed (v : V) : Int :=
  if v.bits < 2 ^ (v.w - 1) then v.bits else (v.bits : Int) - 2 ^ v.w

/-- Bits for an integer. -/
def wrap (w : Nat) (x : Int) : V := ⟨w, (x % (2 : Int) ^ w).toNat⟩

/-- The memory which a pointer points to: the variable (or parameter) and indices into it. -/
structure Loc where
  root : Nat
  path : List Int
deriving DecidableEq, Repr

/-- The unsigned difference. -/
def sub (a b : V) : Option V :=
  if a.w = b.w then some (wrap a.w ((a.bits : Int) - b.bits)) else none

/-- The unsigned minimum. -/
def umin (a b : V) : Option V :=
  if a.w = b.w then some ⟨a.w, min a.bits b.bits⟩ else none

/-- The signed clamp is undefined if the bounds are in the wrong order. -/
def sclamp (x lo hi : V) : Option V :=
  if x.w = lo.w ∧ x.w = hi.w ∧ lo.signed ≤ hi.signed then
    some (if x.signed < lo.signed then lo else if hi.signed < x.signed then hi else x)
  else none

mutual
/-- The value of an index; `none`: undefined, or the types do not fit. -/
def eval (c : Ctx) (e : Env) (loc : Nat → Loc) : Ix → Option V
  | .id n => some ⟨c.width n, e.val n⟩
  | .lit w v => some (wrap w v)
  | .convert s w x => do
    let v ← eval c e loc x
    return wrap w (if s then v.signed else v.bits)
  | .sub a b => do
    let a ← eval c e loc a
    let b ← eval c e loc b
    sub a b
  | .umin a b => do
    let a ← eval c e loc a
    let b ← eval c e loc b
    umin a b
  | .sclamp x lo hi => do
    let x ← eval c e loc x
    let lo ← eval c e loc lo
    let hi ← eval c e loc hi
    sclamp x lo hi
  | .length base idx member => do
    let path ← evalList c e loc idx
    return wrap 32 (e.runtime (loc base).root ((loc base).path ++ path ++ [(member : Int)]))

/-- The values of indices. -/
def evalList (c : Ctx) (e : Env) (loc : Nat → Loc) : List Ix → Option (List Int)
  | [] => some []
  | i :: is => do
    let v ← eval c e loc i
    let vs ← evalList c e loc is
    return v.signed :: vs
end

/-- Where the pointer `p` points to from now on. -/
def setLoc (loc : Nat → Loc) (p : Nat) (l : Loc) : Nat → Loc :=
  fun q => if q = p then l else loc q

/-- Execute the instructions which make pointers; `none`: undefined. -/
def exec (c : Ctx) (e : Env) : (Nat → Loc) → List PInst → Option (Nat → Loc)
  | loc, [] => some loc
  | loc, ⟨p, .chain base idx⟩ :: rest =>
    match evalList c e loc idx with
    | some path => exec c e (setLoc loc p ⟨(loc base).root, (loc base).path ++ path⟩) rest
    | none => none
  | loc, ⟨p, .copy src⟩ :: rest => exec c e (setLoc loc p (loc src)) rest
  | loc, ⟨_, .other⟩ :: rest => exec c e loc rest

/-- Before the instructions every pointer is a variable. -/
def start : Nat → Loc := fun p => ⟨p, []⟩

/-- The type at the end of a way through a type; bounds of arrays do not matter. -/
def typeAt : Ty → List Int → Option Ty
  | t, [] => some t
  | .fixed _ t, _ :: is => typeAt t is
  | .array _ t, _ :: is => typeAt t is
  | .runtime t, _ :: is => typeAt t is
  | .struct ts, i :: is =>
    if i < 0 then none
    else match ts[i.toNat]? with
      | some t => typeAt t is
      | none => none
  | .scalar, _ :: _ => none

/-- Each index is in bounds. -/
def InBoundsFrom (e : Env) (root : Nat) : List Int → Ty → List Int → Prop
  | _, _, [] => True
  | pre, .fixed n t, i :: is => 0 ≤ i ∧ i < n ∧ InBoundsFrom e root (pre ++ [i]) t is
  | pre, .array len t, i :: is => 0 ≤ i ∧ i < e.val len ∧ InBoundsFrom e root (pre ++ [i]) t is
  | pre, .runtime t, i :: is =>
    0 ≤ i ∧ i < e.runtime root pre ∧ InBoundsFrom e root (pre ++ [i]) t is
  | pre, .struct ts, i :: is =>
    0 ≤ i ∧ ∃ t, ts[i.toNat]? = some t ∧ InBoundsFrom e root (pre ++ [i]) t is
  | _, .scalar, _ :: _ => False

/-- The pointer points into its variable. -/
def InBounds (c : Ctx) (e : Env) (l : Loc) : Prop := InBoundsFrom e l.root [] (c.pointee l.root) l.path

/-- The rules for types of variables: arrays have elements, and a runtime array is the last member of
a structure. -/
structure ValidType (c : Ctx) (e : Env) (t : Ty) : Prop where
  fixed : ∀ p n t', typeAt t p = some (.fixed n t') → 0 < n
  array : ∀ p len t', typeAt t p = some (.array len t') →
    0 < e.val len ∧ (c.signed len = true → e.val len < 2 ^ (c.width len - 1))
  /-- An instruction has at most 65535 words. -/
  struct : ∀ p ts, typeAt t p = some (.struct ts) → ts.length < 65536
  runtime : ∀ p t', typeAt t p = some (.runtime t') →
    ∃ q ts, p = q ++ [(ts.length : Int) - 1] ∧ typeAt t q = some (.struct ts)

/-- The pointers which an instruction uses. -/
def PInst.uses (i : PInst) (p : Nat) : Prop :=
  match i.defn with
  | .chain base _ => p = base
  | .copy src => p = src
  | .other => False

/-- Each pointer is made once, and before it is used. -/
def Ordered : List PInst → Prop
  | [] => True
  | i :: rest =>
    (∀ j ∈ rest, j.id ≠ i.id) ∧ (∀ p, PInst.uses i p → p ≠ i.id ∧ ∀ j ∈ rest, j.id ≠ p) ∧ Ordered rest

/-- The signed value of an instruction of the module. -/
def value (c : Ctx) (e : Env) : Ix → Int
  | .id n => V.signed ⟨c.width n, e.val n⟩
  | _ => 0

/-- The types of the pointers are right, and indices are instructions of the module. -/
def WellTyped (c : Ctx) (e : Env) (i : PInst) : Prop :=
  match i.defn with
  | .chain base idx =>
    (∀ x ∈ idx, ∃ n, x = .id n) ∧
      typeAt (c.pointee base) (idx.map (value c e)) = some (c.pointee i.id)
  | .copy src => c.pointee i.id = c.pointee src
  | .other => True

/-- The execution fits the module. -/
structure Fits (c : Ctx) (e : Env) (is : List PInst) : Prop where
  width : ∀ n, 0 < c.width n
  bits : ∀ n, e.val n < 2 ^ c.width n
  lit : ∀ n b, c.const n = some (.lit b) → e.val n = b
  /-- The module is in static single assignment form. -/
  ordered : Ordered is
  typed : ∀ i ∈ is, WellTyped c e i
  /-- The types of variables and parameters are valid. -/
  types : ∀ p, (∀ i ∈ is, i.id = p → i.defn = .other) → ValidType c e (c.pointee p)
  /-- Runtime arrays are not empty. -/
  runtime : ∀ r p, 0 < e.runtime r p ∧ e.runtime r p < 2 ^ 32
  /-- Constants of narrow unsigned types are not negative if they are treated as signed. -/
  narrow : ∀ n b, c.const n = some (.lit b) → c.signed n = false → c.width n ≠ 32 →
    c.width n ≠ 64 → b < 2 ^ (c.width n - 1)

/-- The modules which the pass can handle. -/
structure Supported (c : Ctx) (e : Env) (is : List PInst) : Prop where
  /-- Widths of integers, and the capability for 64 bits. -/
  width : ∀ n, c.width n = 8 ∨ c.width n = 16 ∨ c.width n = 32 ∨ c.width n = 64 ∧ c.int64 = true
  /-- `OpConstantNull` is neither an index nor the length of an array. -/
  null : ∀ n, c.const n ≠ some .null
  /-- A number of components or columns is one word. -/
  fixed : ∀ p q n t, typeAt (c.pointee p) q = some (.fixed n t) → n < 2 ^ 32
  /-- An index into a structure is a constant. -/
  member : ∀ i ∈ is, ∀ base pre x post ts, i.defn = .chain base (pre ++ x :: post) →
    typeAt (c.pointee base) (pre.map (value c e)) = some (.struct ts) →
    ∃ n b, x = .id n ∧ c.const n = some (.lit b)

end Verif.Robust.Spec
