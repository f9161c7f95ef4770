import Verif.HexFloat.Model

/-!
# What floating-point numbers mean

The number a bit pattern stands for, and what it means to round a number to a format.
-/
namespace Verif.HexFloat

namespace Fmt

/-- The sign bit is set. -/
def neg (F : Fmt) (b : Nat) : Prop := b / 2 ^ (F.e + F.f) % 2 = 1

instance (F : Fmt) (b : Nat) : Decidable (F.neg b) := inferInstanceAs (Decidable (_ = _))

/-- The exponent field. -/
def expField (F : Fmt) (b : Nat) : Nat := b / 2 ^ F.f % 2 ^ F.e

/-- The fraction field. -/
def fracField (F : Fmt) (b : Nat) : Nat := b % 2 ^ F.f

/-- The bit pattern is a NaN: an exponent of all ones and a fraction that is not zero in IEEE
formats, all ones in others. -/
def NaN (F : Fmt) (b : Nat) : Prop :=
  match F.special with
  | .ieee => F.expField b = 2 ^ F.e - 1 ∧ F.fracField b ≠ 0
  | .mask _ => F.expField b = 2 ^ F.e - 1 ∧ F.fracField b = 2 ^ F.f - 1
  | .none => False

/-- The bit pattern is an infinity. -/
def Inf (F : Fmt) (b : Nat) : Prop :=
  match F.special with
  | .ieee => F.expField b = 2 ^ F.e - 1 ∧ F.fracField b = 0
  | .mask _ => False
  | .none => False

/-- The bit pattern is that of a number. -/
def Num (F : Fmt) (b : Nat) : Prop := b < 2 ^ (F.e + F.f + 1) ∧ ¬ F.NaN b ∧ ¬ F.Inf b

/-- The magnitude of a number, in units of `2 ^ -(bias + f)`: a hidden bit unless the exponent field
is zero. -/
def mag (F : Fmt) (b : Nat) : Nat :=
  (if F.expField b = 0 then F.fracField b else 2 ^ F.f + F.fracField b) * 2 ^ max (F.expField b) 1

/-- The number. -/
def val (F : Fmt) (b : Nat) : Rat :=
  (if F.neg b then -1 else 1) * (F.mag b : Rat) / 2 ^ (F.bias + F.f)

/-- The greatest number with an exponent field that is not all ones. -/
def maxFinite (F : Fmt) : Rat := 2 ^ (F.bias + 1) - 2 ^ F.bias / 2 ^ F.f

/-- Half way from there to the next power of two. -/
def halfway (F : Fmt) : Rat := 2 ^ (F.bias + 1) - 2 ^ F.bias / 2 ^ F.f / 2

/-- The least number above zero that is not subnormal. -/
def minNormal (F : Fmt) : Rat := 2 / 2 ^ F.bias

end Fmt

/-- The number `c` of the format is `x` rounded in the direction `dir`. -/
def Rounds (G : Fmt) (dir : Dir) (x : Rat) (c : Nat) : Prop :=
  G.Num c ∧
  match dir with
  | .toZero => (G.val c).abs ≤ x.abs ∧ 0 ≤ x * G.val c ∧ ∀ d, G.Num d → (G.val d).abs ≤ x.abs → (G.val d).abs ≤ (G.val c).abs
  | .toPosInf => x ≤ G.val c ∧ ∀ d, G.Num d → x ≤ G.val d → G.val c ≤ G.val d
  | .toNegInf => G.val c ≤ x ∧ ∀ d, G.Num d → G.val d ≤ x → G.val d ≤ G.val c
  | .nearestEven => ∀ d, G.Num d → (x - G.val c).abs ≤ (x - G.val d).abs ∧
      ((x - G.val d).abs = (x - G.val c).abs → G.val d ≠ G.val c → c % 2 = 0)

/-- Rounding `x` in the direction `dir` cuts digits off. -/
def Truncates (dir : Dir) (x : Rat) : Prop :=
  dir = .toZero ∨ dir = .toPosInf ∧ x < 0 ∨ dir = .toNegInf ∧ 0 < x

/-- The types are wide enough for the exponents: those of `F` for the signed type of `G`, and the
bias of `G` for the signed type of `F`. -/
def Compatible (F G : Fmt) : Prop := F.bias + F.f ≤ 2 ^ (G.W - 1) ∧ G.bias < 2 ^ (F.W - 1)

instance (F G : Fmt) : Decidable (Compatible F G) := inferInstanceAs (Decidable (_ ∧ _))

end Verif.HexFloat
