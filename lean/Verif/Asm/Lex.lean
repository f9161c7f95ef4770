import Verif.ParseNumber.Model
/-!
# The lexer of the assembler  (source/text_handler.cpp, source/text.cpp)

Text is a list of characters which stand for bytes.  A position is the text that
remains after it, so `position->index < text->length` says that the rest is not
empty.  Line and column numbers are not modelled.
-/
namespace Verif.Asm
open Verif.ParseNumber (Text)

/-- The characters skipped one by one in `advance` (text_handler.cpp:74-85). -/
def isBlank (c : Char) : Bool := c == ' ' || c == '\t' || c == '\r' || c == '\n'

/-- `advanceLine` (text_handler.cpp:41-57): the position it leaves behind, after
    the next newline, or at the end of the text or a NUL (`SPV_END_OF_STREAM`). -/
def advanceLine : Text → Text
  | [] => []
  | c :: s => if c = '\x00' then c :: s else if c = '\n' then s else advanceLine s

theorem advanceLine_length (s : Text) : (advanceLine s).length ≤ s.length := by
  induction s with
  | nil => simp [advanceLine]
  | cons c s ih =>
    unfold advanceLine
    split
    · simp
    · split
      · simp
      · simp; omega

/-- `advance` (text_handler.cpp:64-90): the position it leaves behind.  A comment
    that ends at the end of the text or at a NUL ends the function with an error;
    the next round would do the same. -/
def advanceTo : Text → Text
  | [] => []
  | c :: s =>
    if c = '\x00' then c :: s
    else if c = ';' then advanceTo (advanceLine s)
    else if isBlank c then advanceTo s
    else c :: s
termination_by s => s.length
decreasing_by
  · have := advanceLine_length s; simp; omega
  · simp

/-- `advance` with its result: `none` is `SPV_END_OF_STREAM`. -/
def advance (s : Text) : Option Text :=
  match advanceTo s with
  | [] => none
  | c :: r => if c = '\x00' then none else some (c :: r)

/-- The characters that end a word unless escaped or quoted
    (text_handler.cpp:121-128). -/
def isDelim (c : Char) : Bool :=
  c == ' ' || c == ';' || c == ',' || c == '(' || c == ')' || c == '\t' || c == '\n' || c == '\r'

/-- The loop of `getWord` (text_handler.cpp:98-146): the word and the text after
    it. -/
def getWordFrom (quoting escaping : Bool) : Text → Text × Text
  | [] => ([], [])
  | c :: s =>
    if c = '\\' then
      let (w, r) := getWordFrom quoting (!escaping) s
      (c :: w, r)
    else if c = '"' then
      let (w, r) := getWordFrom (if escaping then quoting else !quoting) false s
      (c :: w, r)
    else if isDelim c && !(escaping || quoting) then ([], c :: s)
    else if c = '\x00' then ([], c :: s)
    else
      let (w, r) := getWordFrom quoting false s
      (c :: w, r)

/-- `AssemblyContext::getWord` (text_handler.cpp:230-234).  The error for an empty
    text cannot occur after a successful `advance`. -/
def getWord (s : Text) : Text × Text := getWordFrom false false s

/-- `startsWithOp` (text_handler.cpp:150-156). -/
def startsWithOp : Text → Bool
  | c0 :: c1 :: c2 :: _ => c0 == 'O' && c1 == 'p' && decide ('A' ≤ c2 ∧ c2 ≤ 'Z')
  | _ => false

/-- `AssemblyContext::isStartOfNewInst` (text_handler.cpp:240-260); `none` is
    `word.front()` on an empty word, which is undefined behaviour. -/
def isStartOfNewInst (s : Text) : Option Bool :=
  match advance s with
  | none => some false
  | some s1 =>
    if startsWithOp s1 then some true
    else
      match getWord s with
      | ([], _) => none
      | (c :: _, r) =>
        if c ≠ '%' then some false
        else
          match advance r with
          | none => some false
          | some r1 =>
            let (w, r2) := getWord r1
            if w ≠ ['='] then some false
            else
              match advance r2 with
              | none => some false
              | some r3 => some (startsWithOp r3)

/-- `::isalnum` in the "C" locale. -/
def isAlnum (c : Char) : Bool :=
  decide ('0' ≤ c ∧ c ≤ '9') || decide ('a' ≤ c ∧ c ≤ 'z') || decide ('A' ≤ c ∧ c ≤ 'Z')

/-- `spvIsValidIDCharacter`, `spvIsValidID` (text.cpp:47-61). -/
def isValidId (s : Text) : Bool := s ≠ [] && s.all (fun c => c == '_' || isAlnum c)

/-- What `spvTextToLiteral` (text.cpp:65-151) finds.  Of the numeric forms only
    the unsigned 32-bit one is told apart, the only one its callers look at. -/
inductive Lit where
  | str (s : Text)
  | u32 (n : Nat)
  | number
  | failedMatch
  | outOfMemory
deriving DecidableEq

/-- The classification loop of `spvTextToLiteral` (text.cpp:73-104): `isString`
    and the number of periods, from index `i` on. -/
def classify : (i : Nat) → (isString : Bool) → (periods : Nat) → Text → Bool × Nat
  | _, isString, periods, [] => (isString, periods)
  | i, isString, periods, c :: s =>
    if '0' ≤ c ∧ c ≤ '9' then classify (i + 1) isString periods s
    else if c = '.' then classify (i + 1) isString (periods + 1) s
    else if c = '-' then classify (i + 1) (isString || decide (i ≠ 0)) periods s
    else (true, periods)

/-- `SPV_LIMIT_LITERAL_STRING_BYTES_MAX` (source/spirv_constant.h:45-50). -/
def maxStringBytes : Nat := 65535 * 4

/-- The loop that removes escapes (text.cpp:111-122); `none` is
    `SPV_ERROR_OUT_OF_MEMORY`. -/
def unescape : Text → (escaping : Bool) → (out : Text) → Option Text
  | [], _, out => some out
  | c :: s, escaping, out =>
    if c = '\\' ∧ escaping = false then unescape s true out
    else if maxStringBytes ≤ out.length then none
    else unescape s false (out ++ [c])

/-- `strtoull` on a text of decimal digits: saturates at the largest value. -/
def decimal (s : Text) : Nat :=
  min (s.foldl (fun n c => n * 10 + (c.toNat - '0'.toNat)) 0) (2 ^ 64 - 1)

/-- `spvTextToLiteral` (text.cpp:65-151). -/
def textToLiteral (s : Text) : Lit :=
  if s = [] then .failedMatch
  else
    let (isString, periods) := classify 0 false 0 s
    let isSigned := s.head? = some '-'
    if isString = true ∨ 1 < periods ∨ (isSigned ∧ s.length = 1) then
      if s.length < 2 ∨ s.head? ≠ some '"' ∨ s.getLast? ≠ some '"' then .failedMatch
      else
        match unescape (s.drop 1).dropLast false [] with
        | none => .outOfMemory
        | some r => .str r
    else if periods = 1 then .number
    else if isSigned then .number
    else if decimal s < 2 ^ 32 then .u32 (decimal s)
    else .number

end Verif.Asm
