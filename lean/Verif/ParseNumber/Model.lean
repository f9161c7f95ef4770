/-
Model of the integer half of `source/util/parse_number.{h,cpp}`:
`ParseNumber<T>` for integer `T`, `CheckRangeAndIfHexThenSignExtend` and
`ParseAndEncodeIntegerNumber`.

The functions read text through `std::istringstream >> std::setbase(0) >> v`.
That operator is part of the C++ library, not of /repo.  It is modelled here
after libstdc++'s `num_get::_M_extract_int` in the "C" locale (the sign, the
`0`/`0x` prefix, digit accumulation with overflow detection, the fail and eof
bits); the model of this one library function is part of the trusted base.
-/
namespace Verif.ParseNumber

/-- A C string (`const char*`) without its terminating NUL.  Characters stand
    for bytes of the execution character set. -/
abbrev Text := List Char

/-- An integer type `T` to parse into: `uint32_t`, `int64_t`, ... -/
structure IntT where
  signed : Bool
  bits : Nat

/-- `uint32_t`, `int64_t` and `uint64_t`: the instances used in /repo. -/
def u32 : IntT := ⟨false, 32⟩
def i64 : IntT := ⟨true, 64⟩
def u64 : IntT := ⟨false, 64⟩

/-- `std::numeric_limits<T>::max()` -/
def IntT.max (t : IntT) : Nat :=
  if t.signed then 2 ^ (t.bits - 1) - 1 else 2 ^ t.bits - 1

/-- The largest magnitude accepted, given the sign (`__max` in libstdc++). -/
def IntT.magnitude (t : IntT) (neg : Bool) : Nat :=
  if neg && t.signed then 2 ^ (t.bits - 1) else t.max

/-- `std::isspace` in the "C" locale. -/
def isSpace (c : Char) : Bool :=
  c == ' ' || c == '\t' || c == '\n' || c == '\x0b' || c == '\x0c' || c == '\r'

/-- Position of a character in the digit table of libstdc++ for a base. -/
def digit (base : Nat) (c : Char) : Option Nat :=
  let d :=
    if '0' ≤ c ∧ c ≤ '9' then some (c.toNat - '0'.toNat)
    else if 'a' ≤ c ∧ c ≤ 'f' then some (c.toNat - 'a'.toNat + 10)
    else if 'A' ≤ c ∧ c ≤ 'F' then some (c.toNat - 'A'.toNat + 10)
    else none
  d.filter (· < base)

/-- The digit loop of libstdc++: stops at the first character which is not a
    digit, and keeps reading digits (without using them) after overflow.
    Returns the value, the overflow flag, the number of digits used and the
    unread text. -/
def accumulate (base max : Nat) (text : Text) (result : Nat) (overflow : Bool)
    (count : Nat) : Nat × Bool × Nat × Text :=
  match text with
  | [] => (result, overflow, count, [])
  | c :: rest =>
    match digit base c with
    | none => (result, overflow, count, c :: rest)
    | some d =>
      if max / base < result then accumulate base max rest result true count
      else accumulate base max rest (result * base + d)
        (overflow || decide (max - d < result * base)) (count + 1)

/-- The base-detection loop of libstdc++ with `setbase(0)`: the base, whether a
    leading zero counts as a digit, and the unread text. -/
def detectBase : Text → Nat × Bool × Text
  | '0' :: 'x' :: rest => (16, false, rest)
  | '0' :: 'X' :: rest => (16, false, rest)
  | '0' :: rest => (8, true, rest)
  | rest => (10, false, rest)

/-- The sign: whether it is a minus, and the unread text. -/
def readSign : Text → Bool × Text
  | '-' :: rest => (true, rest)
  | '+' :: rest => (false, rest)
  | rest => (false, rest)

/-- What one extraction leaves behind: the value stored, `fail()` and `eof()`. -/
structure Read where
  value : Int
  fail : Bool
  eof : Bool
deriving DecidableEq

/-- `text_stream >> std::setbase(0) >> *value_pointer`
    (source/util/parse_number.h:183-187). -/
def streamRead (t : IntT) (text : Text) : Read :=
  let s := text.dropWhile isSpace
  let (neg, s) := readSign s
  let (base, zero, s) := detectBase s
  let (result, overflow, count, s) := accumulate base (t.magnitude neg) s 0 false 0
  let eof := s.isEmpty
  if count = 0 ∧ zero = false then ⟨0, true, eof⟩
  else if overflow then
    ⟨if neg && t.signed then -(2 ^ (t.bits - 1) : Nat) else t.max, true, eof⟩
  else
    ⟨if neg then (if t.signed then -(result : Int)
                  else ((2 ^ t.bits - result) % 2 ^ t.bits : Nat))
     else result, false, eof⟩

/-- `ParseNumber<T>` on a non-null text (parse_number.h:170-204), including the
    work-around for negative text read into an unsigned type
    (`ClampToZeroIfUnsignedType`, :76-97).  `none` is a `false` result. -/
def parseNumber (t : IntT) (text : Text) : Option Int :=
  let r := streamRead t text
  if text ≠ [] ∧ r.eof = true ∧ r.fail = false then
    if text.head? = some '-' ∧ t.signed = false ∧ r.value ≠ 0 then none
    else some r.value
  else none

/-- `spv_number_kind_t` and width: `NumberType` (parse_number.h:30-36); the
    floating point encoding plays no part for integers. -/
inductive Kind where
  | none | unsignedInt | signedInt | floating
deriving DecidableEq

structure NumberType where
  bitwidth : Nat
  kind : Kind
deriving DecidableEq

/-- `IsIntegral`, `IsSigned` (parse_number.h:39-53). -/
def NumberType.isIntegral (t : NumberType) : Bool :=
  t.kind == .unsignedInt || t.kind == .signedInt
def NumberType.isSigned (t : NumberType) : Bool :=
  t.kind == .floating || t.kind == .signedInt

/-- `AssumedBitWidth` (parse_number.h:62-73). -/
def NumberType.assumedBitWidth (t : NumberType) : Nat :=
  if t.kind = .none then 0 else t.bitwidth

/-- `CheckRangeAndIfHexThenSignExtend<T>` (parse_number.h:106-162), for `T` one
    of `int64_t`, `uint64_t`: `negative` is `value < 0` (always false for the
    unsigned instance) and `v` the 64 bits of `value`.  `none` is a `false`
    result; otherwise the bits left in `*updated_value_for_hex`, which the
    callers pass as the address of the value itself. -/
def checkRange (negative : Bool) (v : BitVec 64) (type : NumberType) (isHex : Bool) :
    Option (BitVec 64) :=
  let w := type.assumedBitWidth
  let magnitude0 : BitVec 64 := if w = 64 then -1 else (1#64 <<< w) - 1
  let overflow := ~~~ magnitude0
  let hasSign := negative || type.isSigned
  let magnitude := if hasSign then magnitude0 >>> 1 else magnitude0
  let sign := if hasSign then magnitude + 1 else 0
  let failed :=
    if negative then (v &&& overflow) != overflow || (v &&& sign) != sign
    else if isHex then (v &&& overflow) != 0
    else (v &&& magnitude) != v
  if failed then none
  else if isHex && (v &&& sign) != 0 then some (v ||| overflow)
  else some v

/-- `EncodeNumberStatus` (parse_number.h:207-217). -/
inductive Status where
  | success | unsupported | invalidUsage | invalidText
deriving DecidableEq

/-- The words passed to `emit` on success (parse_number.cpp:115-123). -/
def emitWords (w : Nat) (bits : BitVec 64) : List (BitVec 32) :=
  if 32 < w then
    [(0x00000000ffffffff#64 &&& bits).setWidth 32,
     ((0xffffffff00000000#64 &&& bits) >>> 32).setWidth 32]
  else [bits.setWidth 32]

/-- `ParseAndEncodeIntegerNumber` (parse_number.cpp:57-125).  Returns the status
    and the words passed to `emit`.  `text = none` is a null pointer.  The error
    message is not modelled. -/
def encodeInteger (text : Option Text) (type : NumberType) : Status × List (BitVec 32) :=
  match text with
  | none => (.invalidText, [])
  | some text =>
    if type.isIntegral = false then (.invalidUsage, [])
    else
      let w := type.assumedBitWidth
      if 64 < w then (.unsupported, [])
      else
        let isNegative := text.head? = some '-'
        if isNegative ∧ type.isSigned = false then (.invalidUsage, [])
        else
          let isHex := text.head? = some '0' ∧
            (text[1]? = some 'x' ∨ text[1]? = some 'X')
          let t := if isNegative then i64 else u64
          match parseNumber t text with
          | none => (.invalidText, [])
          | some value =>
            match checkRange (decide (value < 0)) (BitVec.ofInt 64 value) type
                (decide isHex) with
            | none => (.invalidText, [])
            | some bits => (.success, emitWords w bits)

end Verif.ParseNumber
