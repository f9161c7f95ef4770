import Verif.Flags.Model
set_option linter.unusedSimpArgs false

/-!
# C45: flag splitting recovers name and argument
-/
namespace Verif.Flags

theorem dashes_le (f : Text) : dashes f ≤ f.length := by
  unfold dashes; split <;> simp

/-- No flag makes the function throw. -/
theorem splitFlagArgs_total (flag : Text) : ∃ r, splitFlagArgs flag = some r := by
  unfold splitFlagArgs substr
  split
  · exact ⟨_, rfl⟩
  · have hd := dashes_le flag
    split
    · rename_i ix h
      unfold find at h
      split at h
      · rename_i hm
        have := List.idxOf_lt_length_of_mem hm
        simp only [Option.some.injEq] at h
        rw [if_neg (by omega), if_neg (by omega)]
        exact ⟨_, rfl⟩
      · simp at h
    · rw [if_neg (by omega)]; exact ⟨_, rfl⟩

theorem idxOf_dash (name args : Text) (hn : '=' ∉ name) :
    ('-' :: '-' :: name ++ '=' :: args).idxOf '=' = name.length + 2 := by
  have : ('-' :: '-' :: name ++ '=' :: args) = ('-' :: '-' :: name) ++ '=' :: args := rfl
  rw [this, List.idxOf_append]
  simp [hn]

/-- C45: `--name=args`, where `name` has no `=`. -/
theorem split_name_args (name args : Text) (hn : '=' ∉ name) :
    splitFlagArgs ('-' :: '-' :: name ++ '=' :: args) = some (name, args) := by
  unfold splitFlagArgs find
  have hm : '=' ∈ ('-' :: '-' :: name ++ '=' :: args) := by simp
  rw [if_neg (by simp), if_pos hm, idxOf_dash name args hn]
  have hl : ('-' :: '-' :: name ++ '=' :: args).length = name.length + args.length + 3 := by simp; omega
  have h1 : dashes ('-' :: '-' :: name ++ '=' :: args) = 2 := rfl
  have h2 : sub2 (name.length + 2) = name.length := by simp [sub2]
  have h3 : ('-' :: '-' :: name ++ '=' :: args).drop 2 = name ++ '=' :: args := rfl
  have h4 : ('-' :: '-' :: name ++ '=' :: args).drop (name.length + 2 + 1) = args := by
    rw [show name.length + 2 + 1 = 2 + (name.length + 1) by omega, ← List.drop_drop, h3]
    simp
  simp only [substr, hl, h1, h2, h3, h4]
  rw [if_neg (by omega), if_neg (by omega), List.take_of_length_le (l := args) (by omega)]
  simp

/-- C45: `--name`. -/
theorem split_name (name : Text) (hn : '=' ∉ name) :
    splitFlagArgs ('-' :: '-' :: name) = some (name, []) := by
  have h1 : dashes ('-' :: '-' :: name) = 2 := rfl
  have hl : ¬ ('-' :: '-' :: name).length < 2 := by simp
  have hm : '=' ∉ ('-' :: '-' :: name) := by simpa using hn
  have hl2 : ¬ 2 > ('-' :: '-' :: name).length := by simp
  unfold splitFlagArgs find substr
  rw [if_neg hl, if_neg hm, h1]
  simp only [if_neg hl2]
  rw [List.take_of_length_le (by simp; omega)]
  rfl

/-- C45: `-name` (one dash, e.g. `-O`). -/
theorem split_short_name (c : Char) (name : Text) (hc : c ≠ '-') (hn : '=' ∉ c :: name) :
    splitFlagArgs ('-' :: c :: name) = some (c :: name, []) := by
  have h1 : dashes ('-' :: c :: name) = 1 := by
    unfold dashes; split
    · rename_i h; simp at h; exact absurd h.1 hc
    · rfl
    · rename_i h; exact absurd rfl (h _)
  have hl : ¬ ('-' :: c :: name).length < 2 := by simp
  have hm : '=' ∉ ('-' :: c :: name) := by simpa using hn
  have hl2 : ¬ 1 > ('-' :: c :: name).length := by simp
  unfold splitFlagArgs find substr
  rw [if_neg hl, if_neg hm, h1]
  simp only [if_neg hl2]
  rw [List.take_of_length_le (by simp)]
  rfl

/-- Outside the documented form the count `ix - 2` is wrong: with one dash and an argument
the last character of the name is lost. -/
theorem split_short_name_args_wrong (c : Char) (name args : Text) (hc : c ≠ '-') (hn : '=' ∉ c :: name) :
    splitFlagArgs ('-' :: c :: name ++ '=' :: args) = some ((c :: name).dropLast, args) := by
  have hm : '=' ∈ ('-' :: c :: name ++ '=' :: args) := by simp
  have hi : ('-' :: c :: name ++ '=' :: args).idxOf '=' = name.length + 2 := by
    have : ('-' :: c :: name ++ '=' :: args) = ('-' :: c :: name) ++ '=' :: args := rfl
    rw [this, List.idxOf_append]
    have : '=' ∉ ('-' :: c :: name) := by simpa using hn
    simp [this]
  have h1 : dashes ('-' :: c :: name ++ '=' :: args) = 1 := by
    simp only [List.cons_append]
    unfold dashes; split
    · rename_i h; simp at h; exact absurd h.1 hc
    · rfl
    · rename_i h; exact absurd rfl (h _)
  have hl : ('-' :: c :: name ++ '=' :: args).length = name.length + args.length + 3 := by simp; omega
  have h3 : ('-' :: c :: name ++ '=' :: args).drop 1 = c :: name ++ '=' :: args := rfl
  have h4 : ('-' :: c :: name ++ '=' :: args).drop (name.length + 2 + 1) = args := by
    rw [show name.length + 2 + 1 = 1 + (name.length + 1 + 1) by omega, ← List.drop_drop, h3]
    simp
  unfold splitFlagArgs find
  rw [if_neg (by simp), if_pos hm, hi]
  have h2 : sub2 (name.length + 2) = name.length := by simp [sub2]
  simp only [substr, hl, h1, h2, h3, h4]
  rw [if_neg (by omega), if_neg (by omega)]
  have h5 : (c :: name ++ '=' :: args).take name.length = (c :: name).dropLast := by
    rw [List.take_append_of_le_length (by simp), List.dropLast_eq_take]; simp
  rw [h5, List.take_of_length_le (l := args) (by omega)]

example : splitFlagArgs "--loop-unroll-partial=4".toList = some ("loop-unroll-partial".toList, "4".toList) :=
  split_name_args "loop-unroll-partial".toList "4".toList (by decide)
example : splitFlagArgs "--set-spec-const-default-value=1:2 3:4=5".toList =
    some ("set-spec-const-default-value".toList, "1:2 3:4=5".toList) := by decide
example : splitFlagArgs "-Os=1".toList = some ("O".toList, "1".toList) := by decide

/-- English ordinal suffixes. -/
theorem ordinalSuffix_spec (n : Nat) :
    (ordinalSuffix n = "st" ↔ n % 10 = 1 ∧ n % 100 ≠ 11) ∧
    (ordinalSuffix n = "nd" ↔ n % 10 = 2 ∧ n % 100 ≠ 12) ∧
    (ordinalSuffix n = "rd" ↔ n % 10 = 3 ∧ n % 100 ≠ 13) ∧
    (ordinalSuffix n = "th" ↔ (n % 100 = 11 ∨ n % 100 = 12 ∨ n % 100 = 13) ∨ (n % 10 = 0 ∨ 4 ≤ n % 10)) := by
  unfold ordinalSuffix
  refine ⟨?_, ?_, ?_, ?_⟩
  all_goals
    split
    · simp; try omega
    · split
      · simp; try omega
      · split
        · simp; try omega
        · simp; try omega

end Verif.Flags
