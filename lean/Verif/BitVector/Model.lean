/-!
# BitVector  (source/util/bit_vector.h, source/util/bit_vector.cpp)

`bits_` is a list of 64-bit words. Indices are `uint32_t`.
-/
namespace Verif.BitVector

abbrev Bits := List (BitVec 64)

/-- Constructor, source/util/bit_vector.h:36-37. `reserved_size - 1` wraps in
`uint32_t` for 0. -/
def create (reserved : BitVec 32) : Bits :=
  List.replicate ((reserved - 1).toNat / 64 + 1) 0

/-- `static_cast<BitContainer>(1) << bit_in_element`, bit_vector.h:49. -/
def ithBit (i : BitVec 32) : BitVec 64 := 1#64 <<< (i.toNat % 64)

/-- `bits_.resize(n, 0)` for `n` not smaller than the size, bit_vector.h:45. -/
def grow (b : Bits) (n : Nat) : Bits := b ++ List.replicate (n - b.length) 0

/-- `Set`, source/util/bit_vector.h:40-57. Returns the vector and the result. -/
def set (b : Bits) (i : BitVec 32) : Bits × Bool :=
  let e := i.toNat / 64
  let b := if e ≥ b.length then grow b (e + 1) else b
  let original := b.getD e 0
  if (original &&& ithBit i) ≠ 0 then (b, true)
  else (b.set e (original ||| ithBit i), false)

/-- `Clear`, source/util/bit_vector.h:60-77. -/
def clear (b : Bits) (i : BitVec 32) : Bits × Bool :=
  let e := i.toNat / 64
  if e ≥ b.length then (b, false)
  else
    let original := b.getD e 0
    if (original &&& ithBit i) = 0 then (b, false)
    else (b.set e (original &&& ~~~ (ithBit i)), true)

/-- `Get`, source/util/bit_vector.h:80-90. -/
def get (b : Bits) (i : BitVec 32) : Bool :=
  let e := i.toNat / 64
  if e ≥ b.length then false
  else (b.getD e 0 &&& ithBit i) != 0

/-- `Empty`, source/util/bit_vector.h:93-100. -/
def empty : Bits → Bool
  | [] => true
  | b :: bs => if b ≠ 0 then false else empty bs

/-- `Or`, source/util/bit_vector.cpp:41-62: the word loop and, when `other` is
longer, the append that also sets `modified`. -/
def or : Bits → Bits → Bits × Bool
  | [], [] => ([], false)
  | [], o :: os => (o :: os, true)
  | t :: ts, [] => (t :: ts, false)
  | t :: ts, o :: os =>
    let temp := t ||| o
    let r := or ts os
    if temp ≠ t then (temp :: r.1, true) else (t :: r.1, r.2)

/-- `operator==`, source/util/bit_vector.cpp:81-89: the index loop with missing
words read as 0. -/
def eqLoop (a b : Bits) : (fuel i : Nat) → Bool
  | 0, _ => true
  | n + 1, i => if a.getD i 0 ≠ b.getD i 0 then false else eqLoop a b n (i + 1)

def beq (a b : Bits) : Bool := eqLoop a b (max a.length b.length) 0

end Verif.BitVector
