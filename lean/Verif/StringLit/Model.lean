/-!
# Literal strings  (source/util/string_utils.h)

Bytes are `BitVec 8` (`uint8_t(char)`), words are `BitVec 32`.
-/
namespace Verif.StringLit

abbrev Byte := BitVec 8
abbrev Word := BitVec 32

/-- Loop body and loop of `AppendToVector`, source/util/string_utils.h:57-65.
`bs` are the bytes still to visit (the terminating zero byte of line 59
included), `i` is `byte_index`, `word` the partial word, `out` the vector.
Returns the final vector and the final partial word. -/
def appendLoop : List Byte → Nat → Word → List Word → List Word × Word
  | [], _, word, out => (out, word)
  | b :: bs, i, word, out =>
    let word := word ||| (b.zeroExtend 32 <<< (8 * (i % 4)))
    if 3 = i % 4 then appendLoop bs (i + 1) 0 (out ++ [word])
    else appendLoop bs (i + 1) word out

/-- `AppendToVector`, source/util/string_utils.h:50-70. -/
def appendToVector (input : List Byte) (result : List Word) : List Word :=
  let r := appendLoop (input ++ [0]) 0 0 result
  if (input.length + 1) % 4 ≠ 0 then r.1 ++ [r.2] else r.1

/-- `MakeVector`, source/util/string_utils.h:73-79. -/
def makeVector (input : List Byte) : List Word := appendToVector input []

/-- Outcome of `MakeString`: `found s` when a zero byte ended the loop
(string_utils.h:96-98); `unterminated s` when the words ran out (lines 102-106,
where the assertion fires unless disabled by the caller). -/
inductive Decoded where
  | found (s : List Byte)
  | unterminated (s : List Byte)
  deriving DecidableEq, Repr

/-- The string object returned in either case. -/
def Decoded.str : Decoded → List Byte
  | found s => s
  | unterminated s => s

/-- Inner loop of `MakeString`, source/util/string_utils.h:93-100. `k` is
`byte_index`, `n` the number of iterations left. `inl` = early return. -/
def decodeWord (word : Word) : (n k : Nat) → List Byte → List Byte ⊕ List Byte
  | 0, _, result => .inr result
  | n + 1, k, result =>
    let c := (((word >>> (8 * k)) &&& 0xFF).truncate 8 : Byte)
    if c = 0 then .inl result else decodeWord word n (k + 1) (result ++ [c])

/-- `MakeString`, source/util/string_utils.h:84-107; the iterator range is a
list of words. -/
def makeStringLoop : List Word → List Byte → Decoded
  | [], result => .unterminated result
  | w :: ws, result =>
    match decodeWord w 4 0 result with
    | .inl r => .found r
    | .inr r => makeStringLoop ws r

/-- `MakeString(words)`, source/util/string_utils.h:111-123. -/
def makeString (ws : List Word) : Decoded := makeStringLoop ws []

end Verif.StringLit
