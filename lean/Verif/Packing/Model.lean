/-!
# Packing the members of a structure

`source/opt/struct_packing_pass.cpp`. Numbers are of 32 bits and wrap around.
-/
namespace Verif.Packing

/-- The eight rules behave as four: the "EnhancedLayout" and "PackOffset" ones as those without,
struct_packing_pass.cpp:90-120. -/
inductive Rules where
  | std140
  | std430
  | hlsl
  | scalar
deriving DecidableEq

mutual
/-- Types of members. The first number of a scalar, vector or matrix is the size of a component in
bytes; a matrix has columns and rows (`element_count` of the matrix and of its vector type). -/
inductive Ty where
  | scalar (b : Nat)
  | vec (b n : Nat)
  | mat (b cols rows : Nat)
  | arr (elem : Ty) (len : Nat)
  | struct (ms : Tys)

inductive Tys where
  | nil
  | cons (t : Ty) (ts : Tys)
end

/-- `isPackingVec4Padded`, struct_packing_pass.cpp:90-100. -/
def padded : Rules → Bool
  | .std140 => true
  | .hlsl => true
  | _ => false

/-- `uint32_t` results. -/
def w32 (n : Nat) : Nat := n % 2 ^ 32

/-- Subtraction of `uint32_t`. -/
def sub32 (a b : Nat) : Nat := (a + (2 ^ 32 - b % 2 ^ 32)) % 2 ^ 32

/-- `alignPow2`, struct_packing_pass.cpp:157-159; `x & ~m` is `x - (x & m)`. -/
def alignPow2 (v a : Nat) : Nat := w32 (v + a - 1) - (w32 (v + a - 1) &&& (a - 1))

/-- `getPackedBaseSize`, struct_packing_pass.cpp:122-139; the assertion is left out. -/
def baseSize : Ty → Nat
  | .scalar b => b
  | .vec b _ => b
  | .mat b _ _ => b
  | _ => 0

/-- `getScalarElementCount`, struct_packing_pass.cpp:141-153. -/
def elemCount : Ty → Nat
  | .vec _ n => n
  | .mat _ _ rows => rows
  | .struct _ => 0
  | _ => 1

mutual
/-- `getPackedAlignment`, struct_packing_pass.cpp:168-224; the last assertion is left out. -/
def align (r : Rules) : Ty → Nat
  | .scalar b => b
  | .vec b n =>
    if r = .scalar then b else if n = 1 then b else if n = 2 ∨ n = 4 then w32 (b * n)
    else if n = 3 then w32 (b * 4) else 0
  | .mat b cols _ =>
    if r = .scalar then b else if padded r ∨ cols = 3 then w32 (b * 4) else w32 (b * cols)
  | .arr e _ => max (if padded r then 16 else 1) (align r e)
  | .struct ms => if padded r then max (alignMembers r ms 1) 16 else alignMembers r ms 1
/-- The loop, struct_packing_pass.cpp:181-185. -/
def alignMembers (r : Rules) : Tys → Nat → Nat
  | .nil, a => a
  | .cons t ts, a => alignMembers r ts (max a (align r t))
end

/-- `getPadAlignment`, struct_packing_pass.cpp:226-231. -/
def padAlign (t : Ty) (a : Nat) : Nat :=
  match t with
  | .struct _ => a
  | _ => 1

def isStruct : Ty → Bool
  | .struct _ => true
  | _ => false

mutual
/-- `getPackedSize` with `getPackedArrayStride`, struct_packing_pass.cpp:233-310. -/
def size (r : Rules) : Ty → Nat
  | .scalar b => b
  | .vec b n => w32 (n * b)
  | .mat b cols rows =>
    if r = .scalar then w32 (rows * b)
    else
      let s := if padded r ∨ cols = 3 then w32 (rows * b * 4) else w32 (rows * b * cols)
      if r = .hlsl then sub32 s (w32 (sub32 4 rows * b)) else s
  | .arr e n =>
    let s := w32 (alignPow2 (size r e) (max (if padded r then 16 else 1) (align r e)) * n)
    if r = .hlsl ∧ !isStruct e then sub32 s (w32 (sub32 4 (elemCount e) * baseSize e)) else s
  | .struct ms => sizeMembers r ms 0 1
/-- The loop, struct_packing_pass.cpp:254-263. -/
def sizeMembers (r : Rules) : Tys → Nat → Nat → Nat
  | .nil, s, _ => s
  | .cons t ts, s, pad =>
    sizeMembers r ts (w32 (alignPow2 s (max (align r t) pad) + size r t)) (padAlign t (align r t))
end

/-- What comes of the decorations: `undef` for an index of a member that does not exist
(`structMemberTypes[memberIndex]`). -/
inductive Res (α : Type) where
  | ok (a : α)
  | fail
  | undef
deriving DecidableEq

/-- The alignment within a row of 16 bytes, struct_packing_pass.cpp:446-450. -/
def memberAlign (r : Rules) (t : Ty) (cur : Nat) : Nat :=
  if r = .hlsl ∧ cur / 16 ≠ sub32 (w32 (cur + size r t)) 1 / 16 then max (align r t) 16 else align r t

/-- The inner loop of `assignStructMemberOffsets`, struct_packing_pass.cpp:432-471: members with
their offsets, in the order of the decorations. -/
def assign (r : Rules) (ms : List Ty) : List (Nat × Nat) → Nat → Nat → Nat → Res (List (Nat × Nat))
  | [], _, _, _ => .ok []
  | (i, old) :: l, prev, cur, pad =>
    if i < prev then .fail
    else match ms[i]? with
      | none => .undef
      | some t =>
        let a := memberAlign r t cur
        let off := alignPow2 cur (max a pad)
        if old < off then .fail
        else match assign r ms l i (w32 (off + size r t)) (padAlign t a) with
          | .ok out => .ok ((i, off) :: out)
          | e => e

/-- Annotations: the offset of a member of the structure, or something else. -/
inductive Ann where
  | offset (member value : Nat)
  | other (n : Nat)
deriving DecidableEq

/-- The offsets at the head of a list, and the rest. -/
def group : List Ann → List (Nat × Nat) × List Ann
  | .offset i o :: l => ((i, o) :: (group l).1, (group l).2)
  | l => ([], l)

/-- `assignStructMemberOffsets`, struct_packing_pass.cpp:409-479. -/
def pack (r : Rules) (ms : List Ty) : List Ann → Res (List Ann)
  | [] => .ok []
  | .other n :: l =>
    match pack r ms l with
    | .ok out => .ok (.other n :: out)
    | e => e
  | .offset i o :: l =>
    match assign r ms ((i, o) :: (group l).1) 0 0 1 with
    | .ok out => .ok (out.map (fun x => .offset x.1 x.2) ++ (group l).2)
    | .fail => .fail
    | .undef => .undef

end Verif.Packing
