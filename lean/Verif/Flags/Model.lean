/-!
# Flag splitting  (source/util/string_utils.cpp:40-57)
-/
namespace Verif.Flags

abbrev Text := List Char

/-- `std::string::substr(pos, n)`; `none` = `std::out_of_range` is thrown. -/
def substr (s : Text) (pos n : Nat) : Option Text :=
  if pos > s.length then none else some ((s.drop pos).take n)

/-- `std::string::find(c)`; `none` = `npos`. -/
def find (s : Text) (c : Char) : Option Nat :=
  if c ∈ s then some (s.idxOf c) else none

/-- `ix - 2` in `size_t`. -/
def sub2 (ix : Nat) : Nat := if 2 ≤ ix then ix - 2 else 2 ^ 64 + ix - 2

/-- Lines 43-49: the number of leading dashes, up to two. -/
def dashes : Text → Nat
  | '-' :: '-' :: _ => 2
  | '-' :: _ => 1
  | _ => 0

/-- `SplitFlagArgs`, source/util/string_utils.cpp:40-57; `none` = an exception. -/
def splitFlagArgs (flag : Text) : Option (Text × Text) :=
  if flag.length < 2 then some (flag, [])
  else
    match find flag '=' with
    | some ix =>
      match substr flag (dashes flag) (sub2 ix), substr flag (ix + 1) flag.length with
      | some a, some b => some (a, b)
      | _, _ => none
    | none =>
      match substr flag (dashes flag) flag.length with
      | some a => some (a, [])
      | none => none

/-- `CardinalToOrdinal`, source/util/string_utils.cpp:24-38: the suffix. -/
def ordinalSuffix (n : Nat) : String :=
  if n % 10 = 1 ∧ n % 100 ≠ 11 then "st"
  else if n % 10 = 2 ∧ n % 100 ≠ 12 then "nd"
  else if n % 10 = 3 ∧ n % 100 ≠ 13 then "rd"
  else "th"

end Verif.Flags
