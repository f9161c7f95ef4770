import Verif.ParseNumber.Model
/-
What an integer literal means, independently of how it is parsed.
-/
namespace Verif.ParseNumber.Spec

/-- `c` is the character for the digit `d` in some base up to 16, in lower or
    upper case. -/
def IsDigit (base : Nat) (c : Char) (d : Nat) : Prop :=
  d < base ∧ (c = Nat.digitChar d ∨ c = (Nat.digitChar d).toUpper)

/-- `text` spells the digits `ds`. -/
inductive Digits (base : Nat) : Text → List Nat → Prop where
  | nil : Digits base [] []
  | cons {c d s ds} : IsDigit base c d → Digits base s ds → Digits base (c :: s) (d :: ds)

/-- Positional value, most significant digit first. -/
def value (base : Nat) (ds : List Nat) : Nat := ds.foldl (fun n d => n * base + d) 0

/-- A numeral without sign: `0x` and at least one hexadecimal digit, `0` and
    octal digits, or a decimal number without leading zero. -/
inductive Numeral : Text → (hex : Bool) → Nat → Prop where
  | hex {x s ds} : x = 'x' ∨ x = 'X' → s ≠ [] → Digits 16 s ds →
      Numeral ('0' :: x :: s) true (value 16 ds)
  | octal {s ds} : Digits 8 s ds → Numeral ('0' :: s) false (value 8 ds)
  | decimal {s d ds} : Digits 10 s (d :: ds) → d ≠ 0 → Numeral s false (value 10 (d :: ds))

/-- `text` is an integer, with an optional sign, denoting `v`. -/
inductive IntegerText : Text → Int → Prop where
  | plain {s h n} : Numeral s h n → IntegerText s n
  | plus {s h n} : Numeral s h n → IntegerText ('+' :: s) n
  | minus {s h n} : Numeral s h n → IntegerText ('-' :: s) (-(n : Int))

/-- `v` is representable in an integer type of `w` bits. -/
def Representable (w : Nat) (signed : Bool) (v : Int) : Prop :=
  if signed then -(2 ^ (w - 1) : Int) ≤ v ∧ v < 2 ^ (w - 1)
  else 0 ≤ v ∧ v < 2 ^ w

/-- The value of a `w`-bit pattern. -/
def ofPattern (w : Nat) (signed : Bool) (n : Nat) : Int :=
  if signed ∧ 2 ^ (w - 1) ≤ n then (n : Int) - 2 ^ w else n

/-- `text` is a literal for the value `v` of the integer type. -/
inductive Literal (w : Nat) (signed : Bool) : Text → Int → Prop where
  /-- A decimal or octal number. -/
  | number {s n} : Numeral s false n → Representable w signed n → Literal w signed s n
  /-- Hexadecimal digits give the bit pattern. -/
  | pattern {s n} : Numeral s true n → n < 2 ^ w → Literal w signed s (ofPattern w signed n)
  /-- A signed number, in any base, gives the value; a minus sign only for
      signed types. -/
  | plus {s h n} : Numeral s h n → Representable w signed n → Literal w signed ('+' :: s) n
  | minus {s h n} : Numeral s h n → signed = true → Representable w signed (-(n : Int)) →
      Literal w signed ('-' :: s) (-(n : Int))

/-- The words of a literal operand: the two's complement representation of the
    value, sign- or zero-extended to a whole number of words, low word first. -/
def words (w : Nat) (v : Int) : List (BitVec 32) :=
  if w ≤ 32 then [BitVec.ofInt 32 v]
  else [BitVec.ofInt 32 v, BitVec.ofInt 32 (v / 2 ^ 32)]

end Verif.ParseNumber.Spec
