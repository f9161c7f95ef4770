/-!
# Robust access: clamping the indices of access chains

Model of `GraphicsRobustAccessPass` (source/opt/graphics_robust_access_pass.cpp). The pass looks at
the pointers which a function computes, in order, and replaces each index of an access chain by a
new expression. Here a new instruction is an expression (`Ix`) which stands where it is used: it is
inserted before the access chain which uses it. Debug messages, the import of the extended
instructions and running out of ids are left out.
-/

namespace Verif.Robust

/-- A type in memory. -/
inductive Ty where
  | scalar
  /-- `OpTypeVector` and `OpTypeMatrix`: the number of components or columns. -/
  | fixed (n : Nat) (elem : Ty)
  /-- `OpTypeArray`: the id of the length. -/
  | array (len : Nat) (elem : Ty)
  | runtime (elem : Ty)
  | struct (members : List Ty)

/-- An integer constant: `OpConstant` with the bits of its value, or `OpConstantNull`. -/
inductive ConstVal where
  | lit (bits : Nat)
  | null
deriving DecidableEq, Repr

/-- An index. -/
inductive Ix where
  /-- An instruction of the module. -/
  | id (n : Nat)
  /-- A new constant of the given width (636-648 `GetValueForType`). -/
  | lit (w : Nat) (v : Nat)
  /-- `OpSConvert` or `OpUConvert` (650-665 `WidenInteger`). -/
  | convert (signed : Bool) (w : Nat) (e : Ix)
  /-- `OpISub`. -/
  | sub (a b : Ix)
  /-- `UMin` (667-695 `MakeUMinInst`). -/
  | umin (a b : Ix)
  /-- `SClamp` (697-729 `MakeSClampInst`). -/
  | sclamp (x lo hi : Ix)
  /-- `OpArrayLength` of the member of the structure which a pointer and indices point to
  (865-869). -/
  | length (base : Nat) (idx : List Ix) (member : Nat)

/-- How a pointer is made. -/
inductive PDef where
  /-- `OpAccessChain` and `OpInBoundsAccessChain`. -/
  | chain (base : Nat) (idx : List Ix)
  /-- `OpCopyObject`. -/
  | copy (src : Nat)
  /-- Anything else: variables, function parameters. -/
  | other

/-- A pointer made by the function. -/
structure PInst where
  id : Nat
  defn : PDef

/-- What the pass looks up in the module. -/
structure Ctx where
  /-- Width of the type of an integer. -/
  width : Nat → Nat
  /-- Is the type of the integer signed? -/
  signed : Nat → Bool
  /-- `GetConstantFromInst` (constants.cpp:299-365). -/
  const : Nat → Option ConstVal
  /-- The type which a pointer points to. -/
  pointee : Nat → Ty
  /-- Is the capability `Int64` declared? -/
  int64 : Bool

/-- The outcomes other than success: the pass reports failure, or it uses a null pointer. -/
inductive Err where
  | fail
  | crash
deriving DecidableEq, Repr

/-- The signed value of `w` bits. -/
def toSigned (w : Nat) (b : Nat) : Int :=
  if b < 2 ^ (w - 1) then b else (b : Int) - 2 ^ w

/-- constants.h:203-216 `GetS32BitValue`, `GetS64BitValue`: the words hold signed values sign
extended and unsigned values zero extended. -/
def readSigned (w : Nat) (signed : Bool) (bits : Nat) : Int :=
  if signed || w == 32 || w == 64 then toSigned w bits else bits

/-- constants.h:169-182 `GetU32BitValue`, `GetU64BitValue`. -/
def readUnsigned (w : Nat) (signed : Bool) (bits : Nat) : Nat :=
  if signed then (toSigned w bits % (2 : Int) ^ (if w ≤ 32 then 32 else 64)).toNat else bits

/-- 321-326: the width for the largest index. Six rounds are enough for any width from one. -/
def maxWidth : Nat → Nat → Nat → Nat
  | 0, w, _ => w
  | k + 1, w, m => if w < 64 ∧ m >>> w ≠ 0 then maxWidth k (w * 2) m else w

/-- 297-426 `clamp_to_literal_count`. The check in line 346 is made first: types wider than 64 bits
are not looked up. -/
def Ctx.clampLiteral (c : Ctx) (n count : Nat) : Except Err Ix :=
  let w := c.width n
  if count ≤ 1 then .ok (.lit w 0)
  else
    let mw := maxWidth 7 w (count - 1)
    let maxval := min (count - 1) (2 ^ (mw - 1) - 1)
    if w > 64 then .error .fail
    else match c.const n with
      | some .null => .error .crash
      | some (.lit bits) =>
        let value := readSigned w (c.signed n) bits
        if value < 0 then .ok (.lit w 0)
        else if value ≤ (maxval : Int) then .ok (.id n)
        else .ok (.lit mw maxval)
      | none =>
        if w ≥ 64 && !c.int64 then .error .fail
        else if mw > w then
          if !c.int64 && mw ≥ 64 then .error .fail
          else .ok (.sclamp (.convert (c.signed n) mw (.id n)) (.lit mw 0) (.lit mw maxval))
        else .ok (.sclamp (.id n) (.lit mw 0) (.lit mw maxval))

/-- 458-513: `clamp_to_count` for a number of elements which is not a constant; `cw`: the width of
its type. -/
def Ctx.clampDynamic (c : Ctx) (n : Nat) (count : Ix) (cw : Nat) : Ix :=
  let w := c.width n
  let target := max w cw
  let index := if w < target then .convert true target (.id n) else .id n
  let count := if w < target then count else if cw < target then .convert false target count else count
  .sclamp index (.lit target 0)
    (.umin (.sub count (.lit target 1)) (.lit target (2 ^ (target - 1) - 1)))

/-- 428-457 `clamp_to_count` for the length of an array. -/
def Ctx.clampArray (c : Ctx) (n len : Nat) : Except Err Ix :=
  match c.const len with
  | some .null => .error .crash
  | some (.lit bits) =>
    if c.width len ≤ 64 then c.clampLiteral n (readUnsigned (c.width len) (c.signed len) bits)
    else .error .fail
  | none => .ok (c.clampDynamic n (.id len) (c.width len))

/-- 797-817: the index with which the type of the shortened access chain is computed. -/
def Ctx.indexForType (c : Ctx) : Ix → Nat
  | .id n =>
    match c.const n with
    | some (.lit bits) => readUnsigned (c.width n) (c.signed n) bits % 2 ^ 32
    | _ => 0
  | .lit _ v => v % 2 ^ 32
  | _ => 0

/-- `TypeManager::GetMemberType`; `none`: no such member. -/
def Ctx.typeOf (c : Ctx) : Ty → List Ix → Option Ty
  | t, [] => some t
  | .fixed _ t, _ :: is => c.typeOf t is
  | .array _ t, _ :: is => c.typeOf t is
  | .runtime t, _ :: is => c.typeOf t is
  | .struct ts, i :: is =>
    match ts[c.indexForType i]? with
    | some t => c.typeOf t is
    | none => none
  | .scalar, _ :: _ => none

/-- 740-848: walks backward over access chains and copies for the pointer which is `steps` indices
before the one given. `fuel` bounds the walk; it is not in the code. -/
def unwind (defs : Nat → PDef) : Nat → PDef → Nat → Except Err (Nat × List Ix)
  | 0, _, _ => .error .fail
  | fuel + 1, .chain base idx, steps =>
    if idx.length = steps then .ok (base, [])
    else if idx.length < steps then unwind defs fuel (defs base) (steps - idx.length)
    else .ok (base, idx.take (idx.length - steps))
  | fuel + 1, .copy src, steps => unwind defs fuel (defs src) steps
  | _ + 1, .other, _ => .error .fail

/-- 731-871 `MakeRuntimeArrayLengthInst`: `idx` are the indices of the access chain up to and
including the one into the array. `fuel` bounds the walk. -/
def Ctx.arrayLength (c : Ctx) (defs : Nat → PDef) (fuel base : Nat) (idx : List Ix) :
    Except Err Ix :=
  match unwind defs fuel (.chain base idx) 2 with
  | .error e => .error e
  | .ok (b, is) =>
    match c.typeOf (c.pointee b) is with
    | some (.struct ts) => .ok (.length b is (ts.length - 1))
    | _ => .error .crash

/-- 518-599: the indices from first to last; `done` are those which were clamped. -/
def Ctx.clampFrom (c : Ctx) (defs : Nat → PDef) (fuel base : Nat) : Ty → List Ix → List Ix →
    Except Err (List Ix)
  | _, done, [] => .ok done
  | t, done, .id n :: rest =>
    match t with
    | .fixed count elem => do
      let i ← c.clampLiteral n count
      c.clampFrom defs fuel base elem (done ++ [i]) rest
    | .array len elem => do
      let i ← c.clampArray n len
      c.clampFrom defs fuel base elem (done ++ [i]) rest
    | .struct ts =>
      match c.const n with
      | some (.lit bits) =>
        let value := readSigned (c.width n) (c.signed n) bits
        if value < 0 then .error .fail
        else match ts[value.toNat]? with
          | some t => c.clampFrom defs fuel base t (done ++ [.id n]) rest
          | none => .error .fail
      | _ => .error .fail
    | .runtime elem => do
      let len ← c.arrayLength defs fuel base (done ++ [.id n])
      c.clampFrom defs fuel base elem (done ++ [c.clampDynamic n len 32]) rest
    | .scalar => .error .fail
  | _, _, _ :: _ => .error .fail

/-- Replace a definition. -/
def setDef (defs : Nat → PDef) (id : Nat) (d : PDef) : Nat → PDef :=
  fun p => if p = id then d else defs p

/-- 227-256 `ProcessAFunction`: all access chains in order. -/
def Ctx.process (c : Ctx) (fuel : Nat) : (Nat → PDef) → List PInst → Except Err (List PInst)
  | _, [] => .ok []
  | defs, i :: rest =>
    match i.defn with
    | .chain base idx => do
      let idx ← c.clampFrom defs fuel base (c.pointee base) [] idx
      let rest ← c.process fuel (setDef defs i.id (.chain base idx)) rest
      return ⟨i.id, .chain base idx⟩ :: rest
    | _ => do
      let rest ← c.process fuel defs rest
      return i :: rest

/-- The definitions of pointers in a function. -/
def defsOf : List PInst → Nat → PDef
  | [] => fun _ => .other
  | i :: rest => setDef (defsOf rest) i.id i.defn

/-- The pass on one function. -/
def Ctx.run (c : Ctx) (fuel : Nat) (is : List PInst) : Except Err (List PInst) :=
  c.process fuel (defsOf is) is

end Verif.Robust
