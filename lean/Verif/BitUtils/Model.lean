/-!
# Bit utilities  (source/util/bitutils.h)

An unsigned integer type `T` of `w` bits is `BitVec w`. The C++ code promotes
narrow types to `int` and casts back with `T(...)` after every shift; on the
`w`-bit type this is the `BitVec w` shift. `none` stands for a failed
precondition (`assert`; with assertions disabled, an undefined shift).
-/
namespace Verif.BitUtils

/-- `SetBits<T, First, Num>::get`, source/util/bitutils.h:49-59. The template
recursion is on `Num`; a `static_assert` failure (line 51) is `none`. -/
def setBits (w : Nat) : (first num : Nat) → Option (BitVec w)
  | _, 0 => some 0
  | first, num + 1 =>
    if first < w then
      (setBits w (first + 1) num).map fun r => (1#w <<< first) ||| r
    else none

theorem and_pred_lt {w : Nat} (x : BitVec w) (h : x ≠ 0#w) : (x &&& (x - 1#w)).toNat < x.toNat := by
  have hx : 0 < x.toNat := by
    rcases Nat.eq_zero_or_pos x.toNat with h0 | h0
    · exact absurd (BitVec.eq_of_toNat_eq (by simpa using h0)) h
    · exact h0
  have h1 : (x - 1#w).toNat = x.toNat - 1 := by
    have hlt := x.isLt
    rcases w with _ | w
    · simp at hlt; omega
    · have h2 : 2 ≤ 2 ^ (w + 1) := by rw [Nat.pow_succ]; have := Nat.two_pow_pos w; omega
      rw [BitVec.toNat_sub]
      simp only [BitVec.toNat_ofNat]
      rw [Nat.mod_eq_of_lt (by omega : 1 < 2 ^ (w + 1))]
      rw [show 2 ^ (w+1) - 1 + x.toNat = (x.toNat - 1) + 2 ^ (w+1) by omega, Nat.add_mod_right,
        Nat.mod_eq_of_lt (by omega)]
  rw [BitVec.toNat_and, h1]
  have := Nat.and_le_right (n := x.toNat) (m := x.toNat - 1)
  omega

/-- `CountSetBits`, source/util/bitutils.h:97-106. The counter is a `uint32_t`
that never exceeds the bit width, so it is a `Nat` here. -/
def countLoop {w : Nat} (word : BitVec w) (count : Nat) : Nat :=
  if h : word = 0#w then count
  else countLoop (word &&& (word - 1#w)) (count + 1)
termination_by word.toNat
decreasing_by exact and_pred_lt word h

/-- `CountSetBits`, source/util/bitutils.h:97-106. -/
def countSetBits {w : Nat} (word : BitVec w) : Nat := countLoop word 0

/-- `IsBitAtPositionSet`, source/util/bitutils.h:112-118. -/
def isBitAtPositionSet {w : Nat} (word : BitVec w) (position : Nat) : Option Bool :=
  if position < w then some ((word &&& (1#w <<< position)) != 0#w) else none

/-- `MutateBits`, source/util/bitutils.h:126-154. -/
def mutateBits {w : Nat} (word : BitVec w) (first num : Nat) (value : Bool) : Option (BitVec w) :=
  if ¬ first < w then none
  else if ¬ first + num ≤ w then none
  else if num = 0 then some word
  else
    let allOnes : BitVec w := ~~~ 0#w
    let lowMask := (allOnes >>> first) <<< first
    let high := w - (first + num)
    let highMask := (allOnes <<< high) >>> high
    let mask := lowMask &&& highMask
    some (if value then word ||| mask else word &&& ~~~ mask)

/-- `SetHighBits`, source/util/bitutils.h:159-168. -/
def setHighBits {w : Nat} (word : BitVec w) (num : Nat) : Option (BitVec w) :=
  if num = 0 then some word
  else if ¬ num ≤ w then none
  else mutateBits word (w - num) num true

/-- `ClearHighBits`, source/util/bitutils.h:173-182. -/
def clearHighBits {w : Nat} (word : BitVec w) (num : Nat) : Option (BitVec w) :=
  if num = 0 then some word
  else if ¬ num ≤ w then none
  else mutateBits word (w - num) num false

/-- `SignExtendValue`, source/util/bitutils.h:187-198. `n - 1` and `w - n` are
`uint32_t` subtractions: they wrap for `n = 0` and `n > w`, which then fails the
assertion in the callee. -/
def signExtendValue {w : Nat} (value : BitVec w) (n : Nat) : Option (BitVec w) :=
  if n = w then some value
  else if n = 0 then none       -- position 0xFFFFFFFF in IsBitAtPositionSet
  else
    match isBitAtPositionSet value (n - 1) with
    | none => none
    | some neg => if neg then setHighBits value (w - n) else clearHighBits value (w - n)

/-- `ZeroExtendValue`, source/util/bitutils.h:203-207. For `n > w` the
`uint32_t` difference wraps to a number above `w`, failing the assertion. -/
def zeroExtendValue {w : Nat} (value : BitVec w) (n : Nat) : Option (BitVec w) :=
  if n = w then some value
  else if n > w then none
  else clearHighBits value (w - n)

/-- `LSB` for unsigned types, source/util/bitutils.h:211-219. -/
def lsb {w : Nat} (value : BitVec w) : BitVec w := value &&& (~~~ value + 1#w)

end Verif.BitUtils
