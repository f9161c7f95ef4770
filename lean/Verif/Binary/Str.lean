import Verif.StringLit.Props
import Verif.Binary.Lemmas
set_option linter.unusedSimpArgs false
set_option linter.unusedVariables false

/-! String operands of the parser: how their size depends on the words. -/
namespace Verif.Binary
open Verif.StringLit

/-- Some byte of the word is zero. -/
def hasZero (w : Word) : Bool := decide (0#8 ∈ bytesOf w)

theorem length_bytesOf (w : Word) : (bytesOf w).length = 4 := by simp [bytesOf]

theorem length_flat (l : List Word) : (l.flatMap bytesOf).length = l.length * 4 := by
  induction l with
  | nil => rfl
  | cons w l ih => simp only [List.flatMap_cons, List.length_append, length_bytesOf, ih, List.length_cons]; omega

theorem mem_flat (l : List Word) : 0#8 ∈ l.flatMap bytesOf ↔ ∃ w ∈ l, hasZero w = true := by
  simp [hasZero, List.mem_flatMap]

theorem strOf_lt {l : List Byte} (h : 0#8 ∈ l) : (strOf l).length < l.length := by
  unfold strOf
  induction l with
  | nil => simp at h
  | cons a l ih =>
    rw [List.takeWhile_cons]
    split
    · rename_i ha
      have : a ≠ 0#8 := by simpa using ha
      have h : 0#8 ∈ l := by
        rcases List.mem_cons.1 h with h | h
        · exact absurd h.symm this
        · exact h
      have := ih h
      simp only [List.length_cons]; omega
    · simp

theorem strOf_words (l : List Word) (h : ∃ w ∈ l, hasZero w = true) :
    (strOf (l.flatMap bytesOf)).length / 4 = (l.takeWhile (fun w => !hasZero w)).length := by
  induction l with
  | nil => simp at h
  | cons w l ih =>
    rw [List.flatMap_cons]
    by_cases hw : hasZero w = true
    · rw [takeWhile_append_mem (by simpa [hasZero] using hw)]
      have := strOf_lt (l := bytesOf w) (by simpa [hasZero] using hw)
      rw [length_bytesOf] at this
      simp [hw]; omega
    · rw [takeWhile_append_not_mem (by simpa [hasZero] using hw)]
      have h : ∃ w ∈ l, hasZero w = true := by
        obtain ⟨v, h1, h2⟩ := h
        rcases List.mem_cons.1 h1 with rfl | h1
        · exact absurd h2 hw
        · exact ⟨v, h1, h2⟩
      have := ih h
      simp only [List.length_append, length_bytesOf, List.takeWhile_cons, hw, Bool.not_false, if_true,
        List.length_cons, Bool.not_eq_true]
      simp [hw]
      omega

theorem makeString_str (l : List Word) : (makeString l).str =
    if ∃ w ∈ l, hasZero w = true then strOf (l.flatMap bytesOf) else l.flatMap bytesOf := by
  unfold makeString
  rw [makeStringLoop_eq]
  simp only [List.nil_append]
  by_cases h : 0#8 ∈ l.flatMap bytesOf
  · rw [if_pos h, if_pos ((mem_flat l).1 h)]; rfl
  · rw [if_neg h, if_neg (fun q => h ((mem_flat l).2 q))]; rfl

theorem str_full_iff (l : List Word) :
    (makeString l).str.length = l.length * 4 ↔ ¬ ∃ w ∈ l, hasZero w = true := by
  rw [makeString_str]
  split
  · rename_i h
    have := strOf_lt ((mem_flat l).2 h)
    rw [length_flat] at this
    constructor
    · omega
    · intro q; exact absurd h q
  · rename_i h
    exact ⟨fun _ => h, fun _ => length_flat l⟩

theorem str_words (l : List Word) (h : (makeString l).str.length ≠ l.length * 4) :
    (makeString l).str.length / 4 = (l.takeWhile (fun w => !hasZero w)).length := by
  have h' : ∃ w ∈ l, hasZero w = true := by
    rw [ne_eq, str_full_iff, Classical.not_not] at h; exact h
  rw [makeString_str, if_pos h', strOf_words l h']

theorem bswap_bytes (w : Word) : bytesOf (bswap w) = (bytesOf w).reverse := by
  have key : ∀ k, k < 4 → (bswap w).extractLsb' (8 * k) 8 = w.extractLsb' (8 * (3 - k)) 8 := by
    intro k hk
    unfold bswap
    have : k = 0 ∨ k = 1 ∨ k = 2 ∨ k = 3 := by omega
    rcases this with rfl | rfl | rfl | rfl <;>
    · apply BitVec.eq_of_getLsbD_eq
      intro i hi
      have : i = 0 ∨ i = 1 ∨ i = 2 ∨ i = 3 ∨ i = 4 ∨ i = 5 ∨ i = 6 ∨ i = 7 := by omega
      rcases this with h | h | h | h | h | h | h | h <;> subst h <;>
        simp [BitVec.getLsbD_extractLsb', BitVec.getLsbD_or, BitVec.getLsbD_and,
          BitVec.getLsbD_shiftLeft, BitVec.getLsbD_ushiftRight, Nat.testBit]
  have h0 := key 0 (by omega)
  have h1 := key 1 (by omega)
  have h2 := key 2 (by omega)
  have h3 := key 3 (by omega)
  simp only [Nat.mul_zero, Nat.mul_one, Nat.sub_zero, Nat.reduceMul, Nat.reduceSub] at h0 h1 h2 h3
  simp only [bytesOf, List.reverse_cons, List.reverse_nil, List.nil_append, List.cons_append]
  simp only [h0, h1, h2, h3]

theorem hasZero_bswap (w : Word) : hasZero (bswap w) = hasZero w := by
  unfold hasZero
  rw [bswap_bytes]
  simp

theorem takeWhile_bswap (l : List Word) :
    ((l.map bswap).takeWhile (fun w => !hasZero w)).length = (l.takeWhile (fun w => !hasZero w)).length := by
  induction l with
  | nil => rfl
  | cons w l ih =>
    simp only [List.map_cons, List.takeWhile_cons, hasZero_bswap]
    split
    · simp [ih]
    · rfl

theorem str_full_bswap (l : List Word) :
    (makeString (l.map bswap)).str.length = l.length * 4 ↔ (makeString l).str.length = l.length * 4 := by
  have h1 := str_full_iff (l.map bswap)
  have h2 := str_full_iff l
  rw [List.length_map] at h1
  rw [h1, h2]
  simp [hasZero_bswap]

/-- The number of words of a string does not depend on the byte order. -/
theorem str_words_bswap (l : List Word) (h : (makeString l).str.length ≠ l.length * 4) :
    (makeString (l.map bswap)).str.length / 4 = (makeString l).str.length / 4 := by
  have h' : (makeString (l.map bswap)).str.length ≠ (l.map bswap).length * 4 := by
    rw [List.length_map]; exact fun q => h ((str_full_bswap l).1 q)
  rw [str_words _ h, str_words _ h', takeWhile_bswap]

/-- Words after the end of a string do not matter. -/
theorem str_take (l : List Word) (k : Nat) (h : (makeString l).str.length ≠ l.length * 4)
    (hk : (makeString l).str.length / 4 + 1 ≤ k) :
    (makeString (l.take k)).str = (makeString l).str ∧
      (makeString (l.take k)).str.length ≠ (l.take k).length * 4 := by
  have hz : ∃ w ∈ l, hasZero w = true := by
    rw [ne_eq, str_full_iff, Classical.not_not] at h; exact h
  have hw := str_words l h
  have hz' : ∃ w ∈ l.take k, hasZero w = true := by
    have : ∀ (l : List Word) (k : Nat), (∃ w ∈ l, hasZero w = true) →
        (l.takeWhile (fun w => !hasZero w)).length < k → ∃ w ∈ l.take k, hasZero w = true := by
      intro l
      induction l with
      | nil => simp
      | cons a l ih =>
        intro k h hk
        cases k with
        | zero => simp at hk
        | succ k =>
          rw [List.take_succ_cons]
          by_cases ha : hasZero a = true
          · exact ⟨a, by simp, ha⟩
          · rw [List.takeWhile_cons] at hk
            simp [ha] at hk
            obtain ⟨w, h1, h2⟩ := ih k (by
              obtain ⟨v, h1, h2⟩ := h
              rcases List.mem_cons.1 h1 with rfl | h1
              · exact absurd h2 ha
              · exact ⟨v, h1, h2⟩) hk
            exact ⟨w, List.mem_cons_of_mem _ h1, h2⟩
    exact this l k hz (by omega)
  refine ⟨?_, ?_⟩
  · rw [makeString_str, makeString_str, if_pos hz, if_pos hz']
    have : l.flatMap bytesOf = (l.take k).flatMap bytesOf ++ (l.drop k).flatMap bytesOf := by
      rw [← List.flatMap_append, List.take_append_drop]
    rw [this, takeWhile_append_mem ((mem_flat _).2 hz')]
  · rw [ne_eq, str_full_iff, Classical.not_not]; exact hz'

end Verif.Binary
