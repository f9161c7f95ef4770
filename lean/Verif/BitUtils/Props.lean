import Verif.BitUtils.Lemmas

/-!
# C09  Bit utilities compute their mathematical meaning

The specification is bit-by-bit (`getLsbD i` = bit `i`) or by value (`toNat`,
`toInt`); `none` is a violated precondition.
-/
namespace Verif.BitUtils

/-- `SetBits<T,First,Num>`: exactly the bits `First … First+Num-1` are one, and the
instantiation is legal exactly when they fit. -/
theorem setBits_spec (w first num : Nat) :
    ((setBits w first num).isSome ↔ (num = 0 ∨ first + num ≤ w)) ∧
    ∀ r, setBits w first num = some r →
      ∀ i, i < w → (r.getLsbD i = true ↔ first ≤ i ∧ i < first + num) := by
  refine ⟨setBits_isSome w first num, ?_⟩
  intro r hr i hi
  rw [setBits_bit w first num r hr i]
  simp [hi]

/-- `CountSetBits` is the number of bit positions holding a one. -/
theorem countSetBits_spec {w : Nat} (x : BitVec w) :
    countSetBits x = ((List.range w).filter (fun i => x.getLsbD i)).length := by
  rw [countSetBits, countLoop_eq, List.countP_eq_length_filter]; simp

/-- `IsBitAtPositionSet` is defined exactly inside the word and returns the bit. -/
theorem isBitAtPositionSet_spec {w : Nat} (x : BitVec w) (k : Nat) :
    isBitAtPositionSet x k = if k < w then some (x.getLsbD k) else none := by
  unfold isBitAtPositionSet
  split
  · rw [and_one_shl_ne_zero x k (by assumption)]
  · rfl

/-- `MutateBits` is defined exactly on ranges inside the word; it writes `value` to
the bits of the range and leaves every other bit alone. -/
theorem mutateBits_spec {w : Nat} (x : BitVec w) (first num : Nat) (v : Bool) :
    ((mutateBits x first num v).isSome ↔ first < w ∧ first + num ≤ w) ∧
    ∀ r, mutateBits x first num v = some r →
      ∀ i, i < w → r.getLsbD i = if first ≤ i ∧ i < first + num then v else x.getLsbD i := by
  constructor
  · unfold mutateBits
    split
    · simp; omega
    · split
      · simp; omega
      · split <;> simp <;> omega
  · intro r hr i hi
    unfold mutateBits at hr
    split at hr
    · simp at hr
    · split at hr
      · simp at hr
      · split at hr
        · simp at hr; subst hr
          rw [if_neg (by omega)]
        · rename_i h1 h2 h3
          have hm := mask_bit (w := w) first num i hi (by omega)
          simp only [Option.some.injEq] at hr
          subst hr
          cases v
          · simp only [Bool.false_eq_true, if_false]
            rw [BitVec.getLsbD_and, BitVec.getLsbD_not, hm]
            by_cases h : first ≤ i ∧ i < first + num
            · simp [h]
            · rw [if_neg h]
              have : (decide (first ≤ i) && decide (i < first + num)) = false := by
                simp; omega
              simp [this, hi]
          · simp only [if_true]
            rw [BitVec.getLsbD_or, hm]
            by_cases h : first ≤ i ∧ i < first + num
            · simp [h]
            · rw [if_neg h]
              have : (decide (first ≤ i) && decide (i < first + num)) = false := by
                simp; omega
              simp [this]

/-- `SetHighBits` writes ones to the top `n` bits and is defined exactly for `n ≤ w`. -/
theorem setHighBits_spec {w : Nat} (x : BitVec w) (n : Nat) :
    ((setHighBits x n).isSome ↔ n ≤ w) ∧
    ∀ r, setHighBits x n = some r →
      ∀ i, i < w → r.getLsbD i = if w - n ≤ i then true else x.getLsbD i := by
  unfold setHighBits
  split
  · rename_i h; subst h
    simp; intro i hi h; omega
  · split
    · simp; omega
    · rename_i h1 h2
      obtain ⟨hs, hb⟩ := mutateBits_spec x (w - n) n true
      refine ⟨by rw [hs]; omega, ?_⟩
      intro r hr i hi
      rw [hb r hr i hi]
      by_cases h : w - n ≤ i
      · rw [if_pos h, if_pos ⟨h, by omega⟩]
      · rw [if_neg h, if_neg (by omega)]

/-- `ClearHighBits` reduces the value modulo `2^(w-n)` and is defined exactly for `n ≤ w`. -/
theorem clearHighBits_spec {w : Nat} (x : BitVec w) (n : Nat) :
    ((clearHighBits x n).isSome ↔ n ≤ w) ∧
    ∀ r, clearHighBits x n = some r → r.toNat = x.toNat % 2 ^ (w - n) := by
  unfold clearHighBits
  split
  · rename_i h; subst h
    simp
  · split
    · simp; omega
    · rename_i h1 h2
      obtain ⟨hs, hb⟩ := mutateBits_spec x (w - n) n false
      refine ⟨by rw [hs]; omega, ?_⟩
      intro r hr
      apply Nat.eq_of_testBit_eq
      intro i
      rw [Nat.testBit_mod_two_pow]
      by_cases hi : i < w
      · have := hb r hr i hi
        simp only [BitVec.getLsbD] at this
        rw [this]
        by_cases h : w - n ≤ i
        · rw [if_pos ⟨h, by omega⟩]; simp; omega
        · rw [if_neg (by omega)]
          have : i < w - n := by omega
          simp [this]
      · have e1 : r.toNat.testBit i = false := by
          have := BitVec.getLsbD_of_ge r i (by omega); simpa [BitVec.getLsbD] using this
        rw [e1]; simp; omega

/-- `ZeroExtendValue`: defined exactly for `n ≤ w`; the result is the unsigned value
of the low `n` bits. -/
theorem zeroExtendValue_spec {w : Nat} (x : BitVec w) (n : Nat) :
    ((zeroExtendValue x n).isSome ↔ n ≤ w) ∧
    ∀ r, zeroExtendValue x n = some r → r.toNat = x.toNat % 2 ^ n := by
  unfold zeroExtendValue
  split
  · rename_i h; subst h
    simp
  · split
    · simp; omega
    · rename_i h1 h2
      obtain ⟨hs, hb⟩ := clearHighBits_spec x (w - n)
      refine ⟨by rw [hs]; omega, ?_⟩
      intro r hr
      rw [hb r hr]
      congr 2; omega

/-- `SignExtendValue`: defined exactly for `1 ≤ n ≤ w` (or the degenerate `n = w = 0`);
the result, read as a signed number, is the signed value of the low `n` bits
(`Int.bmod` is the balanced remainder: the unique representative modulo `2^n` in
`[-2^(n-1), 2^(n-1))`). -/
theorem signExtendValue_spec {w : Nat} (x : BitVec w) (n : Nat) :
    ((signExtendValue x n).isSome ↔ n ≤ w ∧ (n = 0 → w = 0)) ∧
    ∀ r, signExtendValue x n = some r → r.toInt = (x.toNat : Int).bmod (2 ^ n) := by
  unfold signExtendValue
  split
  · rename_i h; subst h
    simp
    exact BitVec.toInt_eq_toNat_bmod x
  · split
    · rename_i h1 h2; subst h2; simp; omega
    · rename_i h1 h2
      rw [isBitAtPositionSet_spec]
      split
      · rename_i hnone
        split at hnone
        · simp at hnone
        · simp; omega
      · rename_i neg hsome
        split at hsome
        · rename_i hlt
          simp only [Option.some.injEq] at hsome
          have hnw : n < w := by omega
          constructor
          · split
            · rw [(setHighBits_spec x (w - n)).1]; omega
            · rw [(clearHighBits_spec x (w - n)).1]; omega
          · intro r hr
            -- the result is `BitVec.signExtend`
            have hr' : r = (x.setWidth n).signExtend w := by
              apply BitVec.eq_of_getLsbD_eq
              intro i hi
              rw [BitVec.getLsbD_signExtend]
              have hmsb : (x.setWidth n).msb = x.getLsbD (n - 1) := by
                rw [BitVec.msb_eq_getLsbD_last, BitVec.getLsbD_setWidth]
                have : n - 1 < n := by omega
                simp [this]
              simp only [hi, decide_true, Bool.true_and, hmsb, hsome]
              cases neg
              · simp only [Bool.false_eq_true, if_false] at hr
                have := (clearHighBits_spec x (w - n)).2 r hr
                have hb : r.getLsbD i = (x.toNat % 2 ^ (w - (w - n))).testBit i := by
                  rw [← this, BitVec.getLsbD]
                rw [hb, Nat.testBit_mod_two_pow]
                have hwn : w - (w - n) = n := by omega
                rw [hwn]
                by_cases h : i < n
                · simp [h]; rfl
                · simp [h]
              · simp only [if_true] at hr
                have := (setHighBits_spec x (w - n)).2 r hr i hi
                rw [this]
                have hwn : w - (w - n) = n := by omega
                rw [hwn]
                by_cases h : i < n
                · rw [if_neg (by omega), if_pos h]; simp [h]
                · rw [if_pos (by omega), if_neg h]
            rw [hr', BitVec.toInt_signExtend]
            rw [Nat.min_eq_right (by omega : n ≤ w)]
            rw [BitVec.toInt_setWidth, Int.bmod_bmod]
        · simp at hsome

/-- `LSB`: zero for zero, otherwise the power of two of the lowest one bit. -/
theorem lsb_spec {w : Nat} (x : BitVec w) :
    (x = 0#w → lsb x = 0#w) ∧
    (x ≠ 0#w → ∃ k, k < w ∧ x.getLsbD k = true ∧ (∀ i, i < k → x.getLsbD i = false) ∧
      (lsb x).toNat = 2 ^ k) := by
  constructor
  · rintro rfl; simp [lsb]
  · intro h
    obtain ⟨k, hk, hb, hlow, hq⟩ := lowest x h
    refine ⟨k, hk, hb, hlow, ?_⟩
    have hneg : ~~~ x + 1#w = ~~~ (x - 1#w) := by
      rw [← BitVec.neg_eq_not_add, BitVec.not_eq_neg_add]
      rw [BitVec.neg_sub]
      rw [BitVec.add_sub_cancel]
    apply Nat.eq_of_testBit_eq
    intro i
    rw [Nat.testBit_two_pow]
    have : (lsb x).getLsbD i = decide (k = i) := by
      unfold lsb
      rw [hneg]
      by_cases hi : i < w
      · have hq' := hq i
        rw [BitVec.getLsbD_and] at hq' ⊢
        rw [BitVec.getLsbD_not]
        by_cases hik : i = k
        · subst hik; rw [hb] at hq' ⊢; simp_all
        · have : ¬ k = i := fun e => hik e.symm
          simp only [hi, this]
          cases hx : x.getLsbD i <;> simp_all
      · rw [BitVec.getLsbD_of_ge _ _ (by omega)]
        simp; omega
    rw [← this, BitVec.getLsbD]

/-! ### Non-vacuity -/
example : signExtendValue (0xF7#32) 8 = some 0xFFFFFFF7#32 := by decide
example : (0xFFFFFFF7#32).toInt = -9 := by decide
example : zeroExtendValue (0xFFF7#32) 8 = some 0xF7#32 := by decide
example : mutateBits (0x0#8) 2 3 true = some 0x1C#8 := by decide
example : mutateBits (0x0#8) 6 3 true = none := by decide
example : setBits 32 16 16 = some 0xFFFF0000#32 := by decide
example : (lsb (0x10001000#32)) = 0x1000#32 := by decide
example : countSetBits (0xF00F#16) = 8 := by
  rw [countSetBits_spec]; decide

end Verif.BitUtils
