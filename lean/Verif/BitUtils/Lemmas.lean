import Verif.BitUtils.Model

set_option linter.unusedSimpArgs false
set_option linter.unusedVariables false

namespace Verif.BitUtils

theorem one_shl_getLsbD {w : Nat} (k i : Nat) :
    (1#w <<< k).getLsbD i = (decide (i < w) && decide (i = k)) := by
  rw [BitVec.getLsbD_shiftLeft]
  by_cases hi : i < w
  · by_cases h1 : i < k
    · simp [h1]; omega
    · by_cases h2 : i = k
      · subst h2; simp [hi]; 
        rcases w with _ | w
        · omega
        · simp
      · have : i - k ≠ 0 := by omega
        simp [h2, this]
  · simp [hi]

theorem setBits_bit (w first num : Nat) (r : BitVec w) (h : setBits w first num = some r) :
    ∀ i, r.getLsbD i = (decide (i < w) && decide (first ≤ i) && decide (i < first + num)) := by
  induction num generalizing first r with
  | zero => intro i; simp [setBits] at h; subst h; simp; try omega
  | succ n ih =>
    intro i
    simp only [setBits] at h
    split at h
    · rename_i hf
      simp only [Option.map_eq_some_iff] at h
      obtain ⟨r', hr', rfl⟩ := h
      rw [BitVec.getLsbD_or, ih _ _ hr', one_shl_getLsbD]
      by_cases hi : i < w <;> simp [hi]
      grind
    · simp at h

theorem setBits_isSome (w first num : Nat) :
    (setBits w first num).isSome ↔ num = 0 ∨ first + num ≤ w := by
  induction num generalizing first with
  | zero => simp [setBits]
  | succ n ih =>
    simp only [setBits]
    split
    · simp [ih]; omega
    · simp; omega

theorem and_one_shl_ne_zero {w : Nat} (x : BitVec w) (k : Nat) (hk : k < w) :
    ((x &&& (1#w <<< k)) != 0#w) = x.getLsbD k := by
  cases hb : x.getLsbD k
  · have : x &&& (1#w <<< k) = 0#w := by
      apply BitVec.eq_of_getLsbD_eq
      intro i hi
      rw [BitVec.getLsbD_and, one_shl_getLsbD]
      by_cases h : i = k
      · subst h; simp [hb]
      · simp [h]
    simp [this]
  · simp only [bne_iff_ne, ne_eq]
    intro h
    have := congrArg (fun y => BitVec.getLsbD y k) h
    rw [BitVec.getLsbD_and, one_shl_getLsbD, hb] at this
    simp [hk] at this

theorem mask_bit {w : Nat} (first num i : Nat) (hi : i < w) (hf : first + num ≤ w) :
    (((~~~ 0#w : BitVec w) >>> first) <<< first &&&
      ((~~~ 0#w : BitVec w) <<< (w - (first + num))) >>> (w - (first + num))).getLsbD i
      = (decide (first ≤ i) && decide (i < first + num)) := by
  simp only [BitVec.getLsbD_and, BitVec.getLsbD_shiftLeft, BitVec.getLsbD_ushiftRight,
    BitVec.getLsbD_not, BitVec.getLsbD_zero]
  simp
  grind

/-- Every nonzero natural is an odd number times a power of two. -/
theorem exists_odd_mul (n : Nat) (h : n ≠ 0) : ∃ k m, n = 2 ^ k * (2 * m + 1) := by
  induction n using Nat.strongRecOn with
  | ind n ih =>
    rcases Nat.mod_two_eq_zero_or_one n with h2 | h2
    · obtain ⟨k, m, hk⟩ := ih (n / 2) (by omega) (by omega)
      refine ⟨k + 1, m, ?_⟩
      have : n = 2 * (n / 2) := by omega
      rw [this, hk, Nat.pow_succ]
      rw [Nat.mul_comm (2^k) 2, Nat.mul_assoc]
    · exact ⟨0, n / 2, by omega⟩

theorem testBit_pow_mul_add (k m r i : Nat) (hr : r < 2 ^ k) :
    (2 ^ k * m + r).testBit i = if i < k then r.testBit i else m.testBit (i - k) := by
  exact Nat.testBit_two_pow_mul_add m hr i

theorem testBit_low (k m i : Nat) :
    (2 ^ k * (2 * m + 1)).testBit i =
      (decide (i = k) || (decide (k < i) && m.testBit (i - k - 1))) := by
  have := testBit_pow_mul_add k (2 * m + 1) 0 i (Nat.two_pow_pos k)
  rw [Nat.add_zero] at this
  rw [this]
  by_cases h : i < k
  · have h1 : i ≠ k := by omega
    have h2 : ¬ k < i := by omega
    simp [h, h1, h2]
  · rw [if_neg h]
    by_cases h1 : i = k
    · subst h1; simp
    · have h2 : k < i := by omega
      obtain ⟨j, hj⟩ : ∃ j, i - k = j + 1 := ⟨i - k - 1, by omega⟩
      rw [hj, Nat.testBit_succ]
      have : (2 * m + 1) / 2 = m := by omega
      have hj' : i - k - 1 = j := by omega
      simp [h1, h2, this, hj']

theorem testBit_low_pred (k m i : Nat) :
    (2 ^ k * (2 * m + 1) - 1).testBit i =
      (decide (i < k) || (decide (k < i) && m.testBit (i - k - 1))) := by
  have hp := Nat.two_pow_pos k
  have e : 2 ^ k * (2 * m + 1) - 1 = 2 ^ k * (2 * m) + (2 ^ k - 1) := by
    rw [Nat.mul_add, Nat.mul_one]; omega
  rw [e, testBit_pow_mul_add k (2 * m) (2 ^ k - 1) i (by omega)]
  by_cases h : i < k
  · simp [h, Nat.testBit_two_pow_sub_one]
  · rw [if_neg h]
    by_cases h1 : i = k
    · subst h1; simp
    · have h2 : k < i := by omega
      obtain ⟨j, hj⟩ : ∃ j, i - k = j + 1 := ⟨i - k - 1, by omega⟩
      rw [hj, Nat.testBit_succ]
      have : (2 * m) / 2 = m := by omega
      have hj' : i - k - 1 = j := by omega
      simp [h, h2, this, hj']

theorem toNat_pred {w : Nat} (x : BitVec w) (h : x ≠ 0#w) : (x - 1#w).toNat = x.toNat - 1 := by
  have hx : 0 < x.toNat := by
    rcases Nat.eq_zero_or_pos x.toNat with h0 | h0
    · exact absurd (BitVec.eq_of_toNat_eq (by simpa using h0)) h
    · exact h0
  have hlt := x.isLt
  rcases w with _ | w
  · simp at hlt; omega
  · have h2 : 2 ≤ 2 ^ (w + 1) := by rw [Nat.pow_succ]; have := Nat.two_pow_pos w; omega
    rw [BitVec.toNat_sub]
    simp only [BitVec.toNat_ofNat]
    rw [Nat.mod_eq_of_lt (by omega : 1 < 2 ^ (w + 1))]
    rw [show 2 ^ (w+1) - 1 + x.toNat = (x.toNat - 1) + 2 ^ (w+1) by omega, Nat.add_mod_right,
      Nat.mod_eq_of_lt (by omega)]

/-- Lowest set bit: it exists, and the word splits there. -/
theorem lowest {w : Nat} (x : BitVec w) (h : x ≠ 0#w) :
    ∃ k, k < w ∧ x.getLsbD k = true ∧ (∀ i, i < k → x.getLsbD i = false) ∧
      (∀ i, (x &&& (x - 1#w)).getLsbD i = (x.getLsbD i && decide (i ≠ k))) := by
  have hx : x.toNat ≠ 0 := by
    intro h0; exact h (BitVec.eq_of_toNat_eq (by simpa using h0))
  obtain ⟨k, m, hkm⟩ := exists_odd_mul _ hx
  have hlt := x.isLt
  have hk : k < w := by
    have : 2 ^ k < 2 ^ w := by
      calc 2 ^ k ≤ 2 ^ k * (2 * m + 1) := Nat.le_mul_of_pos_right _ (by omega)
        _ = x.toNat := hkm.symm
        _ < 2 ^ w := hlt
    exact (Nat.pow_lt_pow_iff_right (by omega)).mp this
  refine ⟨k, hk, ?_, ?_, ?_⟩
  · rw [BitVec.getLsbD, hkm, testBit_low]; simp
  · intro i hi
    rw [BitVec.getLsbD, hkm, testBit_low]
    simp; omega
  · intro i
    rw [BitVec.getLsbD_and]
    simp only [BitVec.getLsbD]
    rw [toNat_pred x h, hkm, testBit_low, testBit_low_pred]
    by_cases h1 : i = k
    · subst h1; simp
    · simp [h1]; intro h2 h3; right; exact ⟨h2, h3⟩

theorem countP_remove (w k : Nat) (p q : Nat → Bool) (hk : k < w) (hp : p k = true)
    (hq : ∀ i, q i = (p i && decide (i ≠ k))) :
    (List.range w).countP p = (List.range w).countP q + 1 := by
  induction w with
  | zero => omega
  | succ n ih =>
    rw [List.range_succ, List.countP_append, List.countP_append]
    by_cases h : k = n
    · subst h
      have e : (List.range k).countP p = (List.range k).countP q := by
        apply List.countP_congr
        intro i hi
        have := List.mem_range.mp hi
        rw [hq i]; simp; omega
      simp [e, hp, hq]
    · rw [ih (by omega)]
      have : q n = p n := by rw [hq]; simp; omega
      simp [List.countP_cons, this]; omega

theorem countLoop_eq {w : Nat} (x : BitVec w) (c : Nat) :
    countLoop x c = c + (List.range w).countP (fun i => x.getLsbD i) := by
  induction x, c using countLoop.induct with
  | case1 c =>
    rw [countLoop]; simp
  | case2 x c h ih =>
    rw [countLoop, dif_neg h, ih]
    obtain ⟨k, hk, hb, _, hq⟩ := lowest x h
    have := countP_remove w k (fun i => x.getLsbD i) (fun i => (x &&& (x - 1#w)).getLsbD i) hk hb hq
    omega

end Verif.BitUtils
