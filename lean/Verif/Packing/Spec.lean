import Verif.Packing.Model
/-!
# The rules of std140, std430 and scalar layout

After the OpenGL and Vulkan specifications, for row-major matrices, without a bound on numbers.
-/
namespace Verif.Packing.Spec

/-- The next multiple. -/
def roundUp (n a : Nat) : Nat := (n + (a - 1)) / a * a

/-- Rounded up to the alignment of a vector of four for std140. -/
def atLeast (r : Rules) (a : Nat) : Nat := if r = .std140 then roundUp a 16 else a

/-- Rules 1 to 3. -/
def vecAlign (r : Rules) (b n : Nat) : Nat :=
  if r = .scalar then b else if n = 1 then b else if n = 2 then 2 * b else 4 * b

mutual
/-- The base alignment. -/
def alignOf (r : Rules) : Ty → Nat
  | .scalar b => b
  | .vec b n => vecAlign r b n
  | .mat b cols _ => atLeast r (vecAlign r b cols)
  | .arr e _ => atLeast r (alignOf r e)
  | .struct ms => atLeast r (largest r ms)
/-- The largest alignment of members. -/
def largest (r : Rules) : Tys → Nat
  | .nil => 1
  | .cons t ts => max (alignOf r t) (largest r ts)
end

mutual
/-- The size with the padding at the end. A matrix is an array of its rows (rule 7). -/
def bytes (r : Rules) : Ty → Nat
  | .scalar b => b
  | .vec b n => n * b
  | .mat b cols rows => rows * roundUp (cols * b) (atLeast r (vecAlign r b cols))
  | .arr e n => n * roundUp (bytes r e) (atLeast r (alignOf r e))
  | .struct ms => roundUp (endOf r ms 0) (atLeast r (largest r ms))
/-- The end of the last member, the first beginning after the given place. -/
def endOf (r : Rules) : Tys → Nat → Nat
  | .nil, e => e
  | .cons t ts, e => endOf r ts (roundUp e (alignOf r t) + bytes r t)
end

/-- Offsets of members, the first beginning after the given place. -/
def layout (r : Rules) : List Ty → Nat → List Nat
  | [], _ => []
  | t :: ts, e => roundUp e (alignOf r t) :: layout r ts (roundUp e (alignOf r t) + bytes r t)

/-- The end of the last of them. -/
def total (r : Rules) : List Ty → Nat → Nat
  | [], e => e
  | t :: ts, e => total r ts (roundUp e (alignOf r t) + bytes r t)

/-- Offsets that keep the rules: in order, each a multiple of the alignment, none within a member
before. -/
def Valid (r : Rules) : List Ty → List Nat → Nat → Prop
  | [], [], _ => True
  | t :: ts, o :: os, e => e ≤ o ∧ o % alignOf r t = 0 ∧ Valid r ts os (o + bytes r t)
  | _, _, _ => False

/-- Scalars and vectors of 32-bit components. -/
def Flat (t : Ty) : Prop := t = .scalar 4 ∨ t = .vec 4 2 ∨ t = .vec 4 3 ∨ t = .vec 4 4

def flatBytes : Ty → Nat
  | .scalar b => b
  | .vec b n => n * b
  | _ => 0

/-- HLSL: in order, apart, and none across a row of 16 bytes. -/
def Rows : List Ty → List Nat → Nat → Prop
  | [], [], _ => True
  | t :: ts, o :: os, e =>
    e ≤ o ∧ o % 4 = 0 ∧ o / 16 = (o + flatBytes t - 1) / 16 ∧ Rows ts os (o + flatBytes t)
  | _, _, _ => False

mutual
/-- Types the rules are followed for: components of 1, 2, 4 or 8 bytes; vectors of two to four;
matrices not with scalar layout, and with components of four bytes with std140. -/
def Good (r : Rules) : Ty → Prop
  | .scalar b => b = 1 ∨ b = 2 ∨ b = 4 ∨ b = 8
  | .vec b n => (b = 1 ∨ b = 2 ∨ b = 4 ∨ b = 8) ∧ (n = 2 ∨ n = 3 ∨ n = 4)
  | .mat b cols rows => r ≠ .scalar ∧ (b = 4 ∨ r = .std430 ∧ (b = 2 ∨ b = 8)) ∧
      (cols = 2 ∨ cols = 3 ∨ cols = 4) ∧ (rows = 2 ∨ rows = 3 ∨ rows = 4)
  | .arr e n => Good r e ∧ 0 < n
  | .struct ms => Goods r ms
def Goods (r : Rules) : Tys → Prop
  | .nil => True
  | .cons t ts => Good r t ∧ Goods r ts
end

end Verif.Packing.Spec
