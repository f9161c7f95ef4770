/-!
# Floating-point literals: `HexFloat`

Model of `HexFloat`, its printer, its parser and its conversions
(/repo/source/util/hex_float.h).  Values of an unsigned C++ type of `W` bits are naturals below
`2 ^ W`, values of the signed type of the same width are integers, and conversions to either type
are written out (`u`, `wrap`).
-/
namespace Verif.HexFloat

/-- How a floating-point type tells which bit patterns are NaN and infinity: as IEEE types do
(hex_float.h 168-174, 226-232, 257-262 and `std::isnan`, `std::isinf`), by all bits of a mask being
set and without infinities (hex_float.h 142-146, 194-198), or not at all (hex_float.h 66-72). -/
inductive Special
  | ieee
  | mask (m : Nat)
  | none
  deriving DecidableEq, Repr

/-- The traits of a floating-point type, `HexFloatTraits` and what is used of `FloatProxyTraits`
(hex_float.h 566-785, 317-479).  `W` is the number of bits of `uint_type`. -/
structure Fmt where
  W : Nat
  used : Nat
  e : Nat
  f : Nat
  bias : Nat
  hasInf : Bool := true
  hasNaN : Bool := true
  hasZero : Bool := true
  hasSign : Bool := true
  nanPattern : Nat
  maxBits : Nat
  special : Special := .ieee
  deriving DecidableEq, Repr

/-- hex_float.h 597-612 (`NaN_pattern` is as there, one digit short), `numeric_limits<float>::max()` -/
def float32 : Fmt := { W := 32, used := 32, e := 8, f := 23, bias := 127, nanPattern := 0x7f80000, maxBits := 0x7f7fffff }
/-- hex_float.h 616-632, `numeric_limits<double>::max()` -/
def float64 : Fmt := { W := 64, used := 64, e := 11, f := 52, bias := 1023, nanPattern := 0x7FF0000000000000, maxBits := 0x7fefffffffffffff }
/-- hex_float.h 636-652, 62-83 -/
def e2m1 : Fmt := { W := 8, used := 4, e := 2, f := 1, bias := 1, hasInf := false, hasNaN := false, nanPattern := 0, maxBits := 0x7, special := .none }
/-- hex_float.h 656-672, 85-106 -/
def e2m3 : Fmt := { W := 8, used := 6, e := 2, f := 3, bias := 1, hasInf := false, hasNaN := false, nanPattern := 0, maxBits := 0x1f, special := .none }
/-- hex_float.h 676-692, 108-129 -/
def e3m2 : Fmt := { W := 8, used := 6, e := 3, f := 2, bias := 3, hasInf := false, hasNaN := false, nanPattern := 0, maxBits := 0x1f, special := .none }
/-- hex_float.h 696-712, 131-150 -/
def e4m3 : Fmt := { W := 8, used := 8, e := 4, f := 3, bias := 7, hasInf := false, nanPattern := 0x7F, maxBits := 0x7e, special := .mask 0x7f }
/-- hex_float.h 716-732, 152-174 -/
def e5m2 : Fmt := { W := 8, used := 8, e := 5, f := 2, bias := 15, nanPattern := 0x7c, maxBits := 0x7b }
/-- hex_float.h 736-752, 176-195 -/
def e8m0 : Fmt := { W := 16, used := 8, e := 8, f := 0, bias := 127, hasInf := false, hasZero := false, hasSign := false, nanPattern := 0xff, maxBits := 0xfe, special := .mask 0xff }
/-- hex_float.h 756-772, 218-242 -/
def half : Fmt := { W := 16, used := 16, e := 5, f := 10, bias := 15, nanPattern := 0x7c00, maxBits := 0x7bff }
/-- hex_float.h 776-792, 244-271 -/
def bfloat16 : Fmt := { W := 16, used := 16, e := 8, f := 7, bias := 127, nanPattern := 0x7F80, maxBits := 0x7F7F }

/-- `static_cast` to the unsigned type of `W` bits. -/
def u (W n : Nat) : Nat := n % 2 ^ W

/-- `static_cast` to the signed type of `W` bits (two's complement). -/
def wrap (W : Nat) (i : Int) : Int := i.bmod (2 ^ W)

/-- `SetBits<T, First, Num>::get` (/repo/source/util/bitutils.h 41-52; the recursion is modelled and
proved in `Verif.BitUtils`) -/
def setBits (first num : Nat) : Nat := (2 ^ num - 1) <<< first

namespace Fmt

/-- hex_float.h 865-866 `fraction_nibbles` -/
def nibbles (F : Fmt) : Nat := (F.f + 3) / 4
/-- hex_float.h 870-871 `num_overflow_bits` -/
def overflowBits (F : Fmt) : Nat := F.nibbles * 4 - F.f
/-- hex_float.h 875-876 `fraction_represent_mask` -/
def representMask (F : Fmt) : Nat := setBits 0 (F.f + F.overflowBits)
/-- hex_float.h 880-881 `first_exponent_bit` -/
def firstExpBit (F : Fmt) : Nat := u F.W (1 <<< F.f)
/-- hex_float.h 885-886 `fraction_encode_mask` -/
def fracMask (F : Fmt) : Nat := setBits 0 F.f
/-- hex_float.h 889-890 `sign_mask` -/
def signMask (F : Fmt) : Nat := if F.hasSign then u F.W (1 <<< (F.used - 1)) else 0
/-- hex_float.h 893-894 `exponent_mask` -/
def expMask (F : Fmt) : Nat := setBits F.f F.e
/-- hex_float.h 907 `min_exponent` -/
def minExp (F : Fmt) : Int := -F.bias

/-- `~m` in the unsigned type -/
def compl (F : Fmt) (m : Nat) : Nat := (2 ^ F.W - 1) ^^^ m

/-- `FloatProxyTraits<T>::isNan` (see `Special`) -/
def isNan (F : Fmt) (b : Nat) : Bool :=
  match F.special with
  | .ieee => (b &&& F.expMask) == F.expMask && (b &&& F.fracMask) != 0
  | .mask m => (b &&& m) == m
  | .none => false

/-- `FloatProxyTraits<T>::isInfinity` (see `Special`) -/
def isInf (F : Fmt) (b : Nat) : Bool :=
  match F.special with
  | .ieee => (b &&& F.expMask) == F.expMask && (b &&& F.fracMask) == 0
  | .mask _ => false
  | .none => false

/-- hex_float.h 913-915 `getUnsignedBits` -/
def unsignedBits (F : Fmt) (b : Nat) : Nat := b &&& F.compl F.signMask

/-- hex_float.h 919-922 `getExponentBits` -/
def expBits (F : Fmt) (b : Nat) : Nat := (b &&& F.expMask) >>> F.f

/-- hex_float.h 926-928 `getUnbiasedExponent` -/
def unbiasedExp (F : Fmt) (b : Nat) : Int := wrap F.W ((F.expBits b : Int) - F.bias)

/-- hex_float.h 931-933 `getSignificandBits` -/
def sigBits (F : Fmt) (b : Nat) : Nat := b &&& F.fracMask

/-- hex_float.h 985 `isNegative` -/
def isNegative (F : Fmt) (b : Nat) : Bool := (b &&& F.signMask) != 0

/-- The loop of hex_float.h 945-948; `none` if it does not end. -/
def normLoop (F : Fmt) (sig : Nat) (exp : Int) : Option Int :=
  if sig &&& (F.firstExpBit >>> 1) = 0 then normLoop F (u F.W (sig <<< 1)) (wrap F.W (exp - 1))
  else some exp
partial_fixpoint

/-- hex_float.h 937-952 `getUnbiasedNormalizedExponent` -/
def normalizedExp (F : Fmt) (b : Nat) : Option Int :=
  if F.hasZero && (b &&& F.compl F.signMask) == 0 then some 0
  else if F.unbiasedExp b = F.minExp then normLoop F (F.sigBits b) (F.unbiasedExp b)
  else some (F.unbiasedExp b)

/-- `n` times `significand = static_cast<uint_type>(significand << 1)`, the loop of
hex_float.h 958-960 -/
def shlTimes (F : Fmt) : Nat → Nat → Nat
  | 0, s => s
  | n + 1, s => shlTimes F n (u F.W (s <<< 1))

/-- hex_float.h 955-963 `getNormalizedSignificand`; the loop runs from the normalized exponent to
`min_exponent`. -/
def normalizedSig (F : Fmt) (b : Nat) : Option Nat := do
  let x ← F.normalizedExp b
  return shlTimes F (F.minExp - x + 1).toNat (F.sigBits b) &&& F.fracMask

end Fmt

/-- hex_float.h 787-793 -/
inductive Dir
  | toZero | nearestEven | toPosInf | toNegInf
  deriving DecidableEq, Repr

/-- hex_float.h 833-837 `CastResult`; the order of the constructors is used at line 1299. -/
inductive CastResult
  | success | lostPrecision | notRepresentable
  deriving DecidableEq, Repr

/-- hex_float.h 1299 `r2 > r ? r2 : r` -/
def CastResult.max : CastResult → CastResult → CastResult
  | .notRepresentable, _ => .notRepresentable
  | _, .notRepresentable => .notRepresentable
  | .lostPrecision, _ => .lostPrecision
  | _, .lostPrecision => .lostPrecision
  | .success, .success => .success

/-- `n` times: note a lost bit and shift right (the loop of hex_float.h 1003-1007, which runs until
the exponent is `min_exponent`). -/
def shrTimes : Nat → Nat → Bool → Nat × Bool
  | 0, s, lost => (s, lost)
  | n + 1, s, lost => shrTimes n (s >>> 1) (lost || s &&& 1 != 0)

/-- hex_float.h 988-1037 `setFromSignUnbiasedExponentAndNormalizedSignificand`: the bits of the new
value and the result. -/
def Fmt.setFrom (F : Fmt) (negative : Bool) (exponent : Int) (significand : Nat) (roundDenormUp : Bool) :
    Nat × CastResult :=
  let denorm : Bool := decide (exponent ≤ F.minExp) && F.f != 0
  let sigIsZero : Bool := !denorm && significand == 0
  let sig1 := if denorm then significand ||| F.firstExpBit else significand
  let lost1 : Bool := denorm && sig1 &&& 1 != 0
  let sig2 := if denorm then sig1 >>> 1 else sig1
  let (sig3, lost2) := shrTimes (F.minExp - exponent).toNat sig2 lost1
  let exp3 := if exponent < F.minExp then F.minExp else exponent
  let sig4 := if exp3 = F.minExp && sig3 == 0 && !sigIsZero && roundDenormUp then 1 else sig3
  let sign := if negative then F.signMask else 0
  let ue := ((exp3 + F.bias) % (2 ^ F.W : Nat)).toNat
  let ue2 := u F.W (ue <<< F.f) &&& F.expMask
  let lost3 : Bool := lost2 || sig4 &&& F.compl F.fracMask != 0
  (sign ||| (ue2 ||| (sig4 &&& F.fracMask)), if lost3 then .lostPrecision else .success)

/-- hex_float.h 1045-1058 `incrementSignificand`: the new significand and the carry. -/
def Fmt.incrementSig (F : Fmt) (sig inc : Nat) : Nat × Bool :=
  let s := u F.W (sig + inc)
  if s &&& F.firstExpBit != 0 then ((s &&& F.compl F.firstExpBit) >>> 1, true) else (s, false)

/-- Whether to round away from zero (hex_float.h 1153-1187), for a significand of which `n` bits
have to go and are not all zero. -/
def roundAway (n : Nat) (neg : Bool) (dir : Dir) (sig : Nat) : Bool :=
  let first := 1 <<< (n - 1)
  let mask := setBits 0 n
  match dir with
  | .toZero => false
  | .toPosInf => !neg
  | .toNegInf => neg
  | .nearestEven =>
    if first &&& sig = 0 then false
    else if (sig &&& mask) &&& (mask ^^^ first) ≠ 0 then true
    else sig &&& (1 <<< n) != 0

/-- hex_float.h 1112-1199 `getRoundedNormalizedSignificand`: the significand, the carry and the
result.  (`~first_rounded_bit` at line 1172 is only used under the mask.) -/
def Fmt.roundedSig (F : Fmt) (G : Fmt) (dir : Dir) (b : Nat) : Option (Nat × Bool × CastResult) := do
  let sig ← F.normalizedSig b
  if F.f ≤ G.f then
    return (u G.W (u G.W sig <<< (G.f - F.f)), false, .success)
  let n := F.f - G.f
  if sig &&& setBits 0 n = 0 then
    return (u G.W (sig >>> n), false, .success)
  if roundAway n (F.isNegative b) dir sig then
    let (s, carry) := F.incrementSig sig (u F.W (1 <<< n))
    return (u G.W (s >>> n), carry, .lostPrecision)
  return (u G.W (sig >>> n), false, .lostPrecision)

/-- The loop of hex_float.h 1238-1242 over the bits of the fraction, most significant first; `k`
is one more than the position of `check_bit`. -/
def checkLoop (W : Nat) (sig : Nat) : Nat → Int → Int
  | 0, x => x
  | k + 1, x =>
    if (1 <<< k) &&& sig ≠ 0 then wrap W (x - 1) else checkLoop W sig k (wrap W (x - 1))

/-- hex_float.h 1233-1243, the exponent of the normalized value -/
def Fmt.castExp (F : Fmt) (b : Nat) : Int :=
  if F.unbiasedExp b = F.minExp then checkLoop F.W (F.sigBits b) F.f (wrap F.W (F.unbiasedExp b + 1))
  else F.unbiasedExp b

/-- hex_float.h 1209-1300 `castTo`: the bits of `other` and the result; `none` if a loop does not
end. -/
def castTo (F G : Fmt) (dir : Dir) (b : Nat) : Option (Nat × CastResult) :=
  let negate := F.isNegative b
  if F.hasZero && F.unsignedBits b == 0 then
    some (if negate then u G.W (1 <<< (G.used - 1)) else 0, if G.hasZero then .success else .notRepresentable)
  else do
    let (sig, carried, r) ← F.roundedSig G dir b
    let exponent := F.castExp b
    let nan := F.isNan b
    let sign := if negate then G.signMask else 0
    if !nan && (decide (exponent + (if carried then 1 else 0) > wrap F.W G.bias) || F.isInf b) then
      return (if G.hasInf then sign ||| G.expMask else sign ||| G.maxBits, r)
    if nan then
      if G.hasNaN then
        let s := u G.W (if F.f ≤ G.f then F.sigBits b <<< (G.f - F.f) else F.sigBits b >>> (F.f - G.f))
        return (G.nanPattern ||| sign ||| G.expMask ||| (if s = 0 then 1 else s), r)
      return (0, .notRepresentable)
    let up := if F.isNegative b then decide (dir = .toNegInf) else decide (dir = .toPosInf)
    let (bits, r2) := G.setFrom negate (wrap G.W exponent) sig up
    return (bits, r2.max r)

/-! ## Printing -/

/-- The loop of hex_float.h 1410-1413; `none` if it does not end. -/
def printLoop (top : Nat) (fraction : Nat) (exp : Int) : Option (Nat × Int) :=
  if fraction &&& top = 0 then printLoop top (u 64 (fraction <<< 1)) (wrap 64 (exp - 1))
  else some (fraction, exp)
partial_fixpoint

/-- The loop of hex_float.h 1424-1428 -/
def trimLoop : Nat → Nat → Nat × Nat
  | 0, fraction => (0, fraction)
  | n + 1, fraction => if fraction &&& 0xF = 0 then trimLoop n (fraction >>> 4) else (n + 1, fraction)

/-- Characters of a `std::ostream` with `std::hex`, `setw(n)` and `setfill('0')` -/
def hexPad (n x : Nat) : List Char :=
  List.replicate (n - (Nat.toDigits 16 x).length) '0' ++ Nat.toDigits 16 x

/-- Characters of a `std::ostream` for a signed number in decimal -/
def decInt (i : Int) : List Char :=
  if i < 0 then '-' :: Nat.toDigits 10 (-i).toNat else Nat.toDigits 10 i.toNat

/-- hex_float.h 1367-1447 `operator<<`, for a stream with the default flags (not `showbase`,
`uppercase`, `internal`, `left`) and the classic locale. -/
def print (F : Fmt) (b : Nat) : Option (List Char) := do
  let sign := if b &&& F.signMask ≠ 0 then ['-'] else []
  let exponent := (b &&& F.expMask) >>> F.f
  let fraction := u 64 ((b &&& F.fracMask) <<< F.overflowBits)
  let isZero : Bool := F.hasZero && exponent == 0 && fraction == 0
  let isDenorm : Bool := F.hasZero && exponent == 0 && !isZero
  let exp0 : Int := if isZero then 0 else wrap 64 ((exponent : Int) - F.bias)
  let (fraction, exp) ← (if F.f > 0 && isDenorm then do
      let (fr, ex) ← printLoop (1 <<< (F.f + F.overflowBits - 1)) fraction exp0
      return (u 64 (fr <<< 1) &&& F.representMask, ex)
    else some (fraction, exp0))
  let (n, fraction) := trimLoop F.nibbles fraction
  return sign ++ ['0', 'x'] ++ [if isZero then '0' else '1'] ++
    (if n ≠ 0 then '.' :: hexPad n fraction else []) ++
    ['p'] ++ (if exp ≥ 0 then ['+'] else []) ++ decInt exp

/-! ## Parsing -/

/-- `::isxdigit` -/
def isXDigit (c : Char) : Bool :=
  ('0' ≤ c && c ≤ '9') || ('a' ≤ c && c ≤ 'f') || ('A' ≤ c && c ≤ 'F')

/-- hex_float.h 1347-1362 `get_nibble_from_character`, for hexadecimal digits -/
def nibbleOf (c : Char) : Nat :=
  if '0' ≤ c && c ≤ '9' then c.toNat - '0'.toNat
  else if 'a' ≤ c && c ≤ 'f' then c.toNat - 'a'.toNat + 10
  else c.toNat - 'A'.toNat + 10

/-- `std::isspace` -/
def isSpace (c : Char) : Bool :=
  c == ' ' || c == '\t' || c == '\n' || c == '\r' || c == Char.ofNat 11 || c == Char.ofNat 12

/-- hex_float.h 1782-1789 `set_nth_most_significant_bit` -/
def setNthMsb (W value bit n : Nat) : Nat :=
  if bit ≠ 0 && n ≤ W - 1 then u W (value ||| (bit <<< (W - 1 - n))) else value

/-- The largest value of the signed type -/
def imax (W : Nat) : Int := 2 ^ (W - 1) - 1
/-- The smallest value of the signed type -/
def imin (W : Nat) : Int := -2 ^ (W - 1)

/-- `saturated_inc` of an unsigned variable, the result ignored (hex_float.h 1795-1801) -/
def incIdx (W n : Nat) : Nat := if n = 2 ^ W - 1 then n else n + 1

/-- The variables while the mantissa is scanned (hex_float.h 1889-1908) -/
structure Mant where
  fraction : Nat
  index : Nat
  exponent : Int
  bitsWritten : Bool
  deriving DecidableEq, Repr

/-- One round of the loop of hex_float.h 1922-1942; `none`: the parse fails. -/
def intBit (W number : Nat) (s : Mant) : Option Mant :=
  let bit := if number &&& 8 ≠ 0 then 1 else 0
  if s.bitsWritten then
    if s.exponent = imax W then none
    else some { fraction := setNthMsb W s.fraction bit s.index, index := incIdx W s.index,
                exponent := s.exponent + 1, bitsWritten := true }
  else some { s with bitsWritten := bit ≠ 0 }

/-- hex_float.h 1922-1942 -/
def intNibble (W number : Nat) (s : Mant) : Option Mant := do
  let s ← intBit W number s
  let s ← intBit W (number <<< 1) s
  let s ← intBit W (number <<< 2) s
  intBit W (number <<< 3) s

/-- hex_float.h 1912-1950: the mantissa up to the '.' or 'p'.  Gives the remaining characters,
`seen_dot`, `has_integer_part` and the variables. -/
def scanInt (W : Nat) : List Char → Bool → Mant → Option (List Char × Bool × Bool × Mant)
  | [], _, _ => none
  | c :: cs, hasInt, s =>
    if c = '.' then some (cs, true, hasInt, s)
    else if c = 'p' then some (cs, false, hasInt, s)
    else if isXDigit c then
      match intNibble W (nibbleOf c) s with
      | none => none
      | some s' => scanInt W cs true s'
    else none

/-- One round of the loop of hex_float.h 1961-1980 -/
def fracBit (W : Nat) (hasInt : Bool) (number : Nat) (s : Mant) : Option Mant :=
  let bit := if number &&& 8 ≠ 0 then 1 else 0
  let written := s.bitsWritten || bit ≠ 0
  if !hasInt && !written then
    if s.exponent = imin W then none
    else some { s with exponent := s.exponent - 1, bitsWritten := written }
  else some { fraction := setNthMsb W s.fraction bit s.index, index := incIdx W s.index,
              exponent := s.exponent, bitsWritten := written }

/-- hex_float.h 1961-1980 -/
def fracNibble (W : Nat) (hasInt : Bool) (number : Nat) (s : Mant) : Option Mant := do
  let s ← fracBit W hasInt number s
  let s ← fracBit W hasInt (number <<< 1) s
  let s ← fracBit W hasInt (number <<< 2) s
  fracBit W hasInt (number <<< 3) s

/-- hex_float.h 1955-1990: the mantissa from the '.' to the 'p' -/
def scanFrac (W : Nat) (hasInt : Bool) : List Char → Mant → Option (List Char × Mant)
  | [], _ => none
  | c :: cs, s =>
    if c = 'p' then some (cs, s)
    else if isXDigit c then
      match fracNibble W hasInt (nibbleOf c) s with
      | none => none
      | some s' => scanFrac W hasInt cs s'
    else none

/-- `::isdigit` -/
def isDigit (c : Char) : Bool := '0' ≤ c && c ≤ '9'

/-- hex_float.h 2006-2007 `written_exponent_overflow` -/
def expOverflow (W : Nat) : Int := imax W - 1

/-- hex_float.h 2018-2029: the magnitude after another digit -/
def expDigit (W : Nat) (written : Int) (c : Char) : Int :=
  let digit : Int := (c.toNat : Int) - '0'.toNat
  if written ≥ (expOverflow W - digit) / 10 then expOverflow W else written * 10 + digit

/-- hex_float.h 2008-2035: the written exponent.  `neg` is `exponent_sign == -1`.  Gives the
remaining characters, `exponent_sign == -1`, `seen_written_exponent_digits` and the magnitude. -/
def scanExp (W : Nat) : List Char → Bool → Bool → Bool → Int → Option (List Char × Bool × Bool × Int)
  | [], _, neg, digits, w => some ([], neg, digits, w)
  | c :: cs, sign, neg, digits, w =>
    if !digits && (c = '-' || c = '+') then
      if sign then none else scanExp W cs true (c = '-') digits w
    else if isDigit c then scanExp W cs sign neg true (expDigit W w c)
    else some (c :: cs, neg, digits, w)

/-- hex_float.h 2045-2063: the sum of the written exponent and the one so far, saturated -/
def addExp (W : Nat) (written exponent : Int) : Int :=
  if written ≥ 0 ∧ exponent ≥ 0 then
    if expOverflow W - exponent > written then written + exponent else expOverflow W
  else if written < 0 ∧ exponent < 0 then
    if expOverflow W + exponent > -written then written + exponent else -expOverflow W
  else written + exponent

/-- The loop of hex_float.h 2084-2094, `n` being minus the exponent: the fraction.  The exponent is
zero afterwards. -/
def denormLoop (mask : Nat) : Nat → Nat → Nat
  | 0, fraction => fraction
  | n + 1, fraction =>
    if (fraction >>> 1) &&& mask = 0 then 0 else denormLoop mask n ((fraction >>> 1) &&& mask)

/-- Subtract one from a variable of the signed type (hex_float.h 2068).  Types smaller than `int`
wrap around; for the others that is undefined, `none`. -/
def decExp (W : Nat) (exponent : Int) : Option Int :=
  if exponent = imin W ∧ 32 ≤ W then none else some (wrap W (exponent - 1))

/-- hex_float.h 2071-2118: the bits, from the sign, the left-aligned fraction and the biased
exponent -/
def assemble (F : Fmt) (neg isZero : Bool) (fraction : Nat) (exponent : Int) : Nat :=
  let fr1 := if exponent ≤ 0 && !isZero then (fraction >>> 1) ||| u F.W (1 <<< (F.used - 1)) else fraction
  let fr2 := (fr1 >>> (F.W - F.f)) &&& F.fracMask
  let fr3 := if isZero then fr2 else denormLoop F.fracMask (-exponent).toNat fr2
  let ex3 := if exponent < 0 then 0 else exponent
  let maxExp : Int := setBits 0 F.e
  let fr4 := if ex3 > maxExp then 0 else fr3
  let ex4 := if ex3 > maxExp then maxExp else ex3
  u F.W ((if neg then 1 else 0) <<< (F.used - 1)) ||| fr4 ||| (u F.W (ex4.toNat <<< F.f) &&& F.expMask)

/-- What reading a value gives. -/
inductive Parsed
  /-- the bits, and the characters that are left -/
  | ok (bits : Nat) (rest : List Char)
  /-- the fail bit is set -/
  | fail
  /-- the text is left to `ParseNormalFloat`, with the sign seen and the characters left -/
  | decimal (neg : Bool) (rest : List Char)
  /-- undefined behaviour -/
  | ub
  deriving DecidableEq, Repr

/-- hex_float.h 2036-2118, from the end of the mantissa -/
def finish (F : Fmt) (neg hasInt : Bool) (s : Mant) (text : List Char) : Parsed :=
  match scanExp F.W text false false false 0 with
  | none => .fail
  | some (rest, expNeg, digits, w) =>
    if !digits then .fail
    else
      let exponent := addExp F.W (if expNeg then -w else w) s.exponent
      let isZero := !hasInt && s.fraction == 0
      if isZero then .ok (assemble F neg true s.fraction 0) rest
      else if !hasInt then
        match decExp F.W exponent with
        | none => .ub
        | some x => .ok (assemble F neg false (u F.W (s.fraction <<< 1)) x) rest
      else .ok (assemble F neg false s.fraction exponent) rest

/-- hex_float.h 1885-2118: a number that looks like a hex float, after the "0x" -/
def parseHex (F : Fmt) (neg : Bool) (text : List Char) : Parsed :=
  match scanInt F.W (text.dropWhile (· == '0')) false
      { fraction := 0, index := 0, exponent := F.bias, bitsWritten := false } with
  | none => .fail
  | some (rest, dot, hasInt, s) =>
    if dot then
      match scanFrac F.W hasInt rest { s with bitsWritten := false } with
      | none => .fail
      | some (rest, s) => finish F neg hasInt s rest
    else finish F neg hasInt s rest

/-- hex_float.h 1864-1883: what follows the sign -/
def parseUnsigned (F : Fmt) (neg : Bool) : List Char → Parsed
  | '0' :: 'x' :: cs => parseHex F neg cs
  | '0' :: 'X' :: cs => parseHex F neg cs
  | cs => .decimal neg cs

/-- hex_float.h 1838-2118 `operator>>`, for a stream that skips white space.  Text that is not a
hex float is left to the standard library. -/
def parse (F : Fmt) (text : List Char) : Parsed :=
  match text.dropWhile isSpace with
  | '-' :: cs => parseUnsigned F true cs
  | '+' :: cs => parseUnsigned F false cs
  | cs => parseUnsigned F false cs

end Verif.HexFloat
