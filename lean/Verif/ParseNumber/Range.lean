import Verif.ParseNumber.Lemmas
set_option linter.unusedSimpArgs false
set_option linter.unusedVariables false
namespace Verif.ParseNumber
open Spec

def mask (w : Nat) : BitVec 64 := if w = 64 then -1 else (1#64 <<< w) - 1

theorem pow_le {w : Nat} (hw : w ≤ 64) : 2 ^ w ≤ 18446744073709551616 :=
  Nat.le_trans (Nat.pow_le_pow_right (by omega) hw) (by decide)

theorem pow_pos (w : Nat) : 1 ≤ 2 ^ w := Nat.one_le_two_pow

theorem pow_half {w : Nat} (h1 : 1 ≤ w) : 2 ^ w = 2 * 2 ^ (w - 1) := by
  obtain ⟨k, rfl⟩ : ∃ k, w = k + 1 := ⟨w - 1, by omega⟩
  rw [Nat.add_sub_cancel, Nat.pow_succ, Nat.mul_comm]

theorem mask_toNat {w : Nat} (hw : w ≤ 64) : (mask w).toNat = 2 ^ w - 1 := by
  unfold mask
  split
  · rename_i h; subst h; decide
  · rename_i h
    have hlt : 2 ^ w < 2 ^ 64 := Nat.pow_lt_pow_right (by omega) (by omega)
    have hp := pow_pos w
    rw [BitVec.toNat_sub, BitVec.toNat_shiftLeft]
    have e1 : (1 : BitVec 64).toNat = 1 := rfl
    simp only [e1]
    simp only [BitVec.toNat_ofNat, Nat.shiftLeft_eq, Nat.reduceMod, Nat.reducePow, Nat.one_mul, Nat.reduceSub] at hlt ⊢
    omega

theorem mask_half {w : Nat} (hw : w ≤ 64) (h1 : 1 ≤ w) : mask w >>> 1 = mask (w - 1) := by
  apply BitVec.eq_of_toNat_eq
  rw [BitVec.toNat_ushiftRight, mask_toNat hw, mask_toNat (by omega), pow_half h1]
  simp only [Nat.shiftRight_eq_div_pow, Nat.pow_one]
  omega

theorem and_mask {w : Nat} (hw : w ≤ 64) (v : BitVec 64) : (v &&& mask w).toNat = v.toNat % 2 ^ w := by
  rw [BitVec.toNat_and, mask_toNat hw, Nat.and_two_pow_sub_one_eq_mod]

theorem and_mask_self {w : Nat} (hw : w ≤ 64) (v : BitVec 64) :
    v &&& mask w = v ↔ v.toNat < 2 ^ w := by
  rw [← BitVec.toNat_inj, and_mask hw, Nat.mod_eq_iff_lt (by have := pow_pos w; omega)]

theorem and_not_zero (v m : BitVec 64) : v &&& ~~~ m = 0 ↔ v &&& m = v := by
  constructor
  · intro h
    ext i hi
    have := congrArg (fun b => b[i]) h
    simp at this ⊢
    exact this
  · intro h
    ext i hi
    have := congrArg (fun b => b[i]) h
    simp at this ⊢
    exact this

theorem and_overflow_zero {w : Nat} (hw : w ≤ 64) (v : BitVec 64) :
    v &&& ~~~ mask w = 0 ↔ v.toNat < 2 ^ w := by
  rw [and_not_zero, and_mask_self hw]

theorem and_eq_right (v o : BitVec 64) : v &&& o = o ↔ ~~~ v &&& o = 0 := by
  constructor
  · intro h
    ext i hi
    have := congrArg (fun b => b[i]) h
    simp at this ⊢
    intro hv
    cases ho : o[i] with
    | false => rfl
    | true => rw [this ho] at hv; cases hv
  · intro h
    ext i hi
    have := congrArg (fun b => b[i]) h
    simp at this ⊢
    intro ho
    cases hv : v[i] with
    | true => rfl
    | false => rw [this hv] at ho; cases ho

/-- The sign bit. -/
theorem sign_toNat {w : Nat} (hw : w ≤ 64) (h1 : 1 ≤ w) : (mask (w - 1) + 1).toNat = 2 ^ (w - 1) := by
  rw [BitVec.toNat_add, mask_toNat (by omega)]
  have := pow_le hw
  rw [pow_half h1] at this
  have hp := pow_pos (w - 1)
  simp only [BitVec.toNat_ofNat, Nat.reducePow, Nat.reduceMod]
  show (2 ^ (w - 1) - 1 + 1) % _ = _
  omega

theorem sign_eq {w : Nat} (hw : w ≤ 64) (h1 : 1 ≤ w) : mask (w - 1) + 1 = BitVec.twoPow 64 (w - 1) := by
  apply BitVec.eq_of_toNat_eq
  rw [sign_toNat hw h1, BitVec.toNat_twoPow]
  have := pow_le hw
  rw [pow_half h1] at this
  have hp := pow_pos (w - 1)
  simp only [Nat.reducePow]
  omega

theorem and_sign {w : Nat} (hw : w ≤ 64) (h1 : 1 ≤ w) (v : BitVec 64) :
    v &&& (mask (w - 1) + 1) = 0 ↔ v.getLsbD (w - 1) = false := by
  rw [sign_eq hw h1, BitVec.and_twoPow]
  cases h : v.getLsbD (w - 1) with
  | false => simp
  | true =>
    simp only [if_true, iff_false, Bool.true_eq_false, reduceCtorEq]
    intro hz
    have := congrArg BitVec.toNat hz
    rw [← sign_eq hw h1, sign_toNat hw h1] at this
    have hp := pow_pos (w - 1)
    simp only [BitVec.ofNat_eq_ofNat, BitVec.toNat_ofNat, Nat.zero_mod] at this
    omega

/-- Below `2^w`, the sign bit says which half. -/
theorem sign_bit {w : Nat} (h1 : 1 ≤ w) (v : BitVec 64) (h : v.toNat < 2 ^ w) :
    v.getLsbD (w - 1) = true ↔ 2 ^ (w - 1) ≤ v.toNat := by
  rw [BitVec.getLsbD, Nat.testBit_eq_decide_div_mod_eq, decide_eq_true_eq]
  rw [pow_half h1] at h
  have hp := pow_pos (w - 1)
  have h2 : v.toNat / 2 ^ (w - 1) < 2 := (Nat.div_lt_iff_lt_mul hp).mpr h
  have h3 := Nat.le_div_iff_mul_le (k := 2 ^ (w - 1)) hp (x := 1) (y := v.toNat)
  rw [Nat.one_mul] at h3
  rw [← h3]
  generalize v.toNat / 2 ^ (w - 1) = q at h2 ⊢
  omega

theorem or_overflow {w : Nat} (hw : w ≤ 64) (n : Nat) (hn : n < 2 ^ w) :
    BitVec.ofInt 64 n ||| ~~~ mask w = BitVec.ofInt 64 ((n : Int) - 2 ^ w) := by
  have hle := pow_le hw
  have hv : (BitVec.ofInt 64 (n : Int)).toNat = n := by
    rw [BitVec.toNat_ofInt]
    simp only [Nat.reducePow]
    omega
  have hz : BitVec.ofInt 64 (n : Int) &&& ~~~ mask w = 0#64 := (and_overflow_zero hw _).mpr (by omega)
  rw [← BitVec.add_eq_or_of_and_eq_zero _ _ hz]
  apply BitVec.eq_of_toNat_eq
  rw [BitVec.toNat_add, BitVec.toNat_not, mask_toNat hw, hv, BitVec.toNat_ofInt]
  have hp := pow_pos w
  have hc : ((2 : Int) ^ w) = ((2 ^ w : Nat) : Int) := by norm_cast
  rw [hc]
  simp only [Nat.reducePow, Nat.reduceSub]
  omega

theorem checkRange_nonneg {w : Nat} (hw : w ≤ 64) (h1 : 1 ≤ w) (signed isHex : Bool) (n : Nat)
    (hn : n < 2 ^ 64) :
    checkRange false (BitVec.ofInt 64 n) ⟨w, if signed then .signedInt else .unsignedInt⟩ isHex =
      if isHex then (if n < 2 ^ w then some (BitVec.ofInt 64 (ofPattern w signed n)) else none)
      else (if n < 2 ^ (if signed then w - 1 else w) then some (BitVec.ofInt 64 n) else none) := by
  have hv : (BitVec.ofInt 64 (n : Int)).toNat = n := by
    rw [BitVec.toNat_ofInt]
    simp only [Nat.reducePow] at hn ⊢
    omega
  have hab : NumberType.assumedBitWidth ⟨w, if signed then .signedInt else .unsignedInt⟩ = w := by
    cases signed <;> rfl
  have hsg : NumberType.isSigned ⟨w, if signed then .signedInt else .unsignedInt⟩ = signed := by
    cases signed <;> rfl
  unfold checkRange
  simp only [hab, hsg, Bool.false_or, Bool.false_eq_true, if_false]
  have hm : (if w = 64 then (-1 : BitVec 64) else (1#64 <<< w) - 1) = mask w := rfl
  simp only [hm]
  have b1 := and_overflow_zero hw (BitVec.ofInt 64 (n : Int))
  have b2 := and_mask_self hw (BitVec.ofInt 64 (n : Int))
  have b3 := and_mask_self (w := w - 1) (by omega) (BitVec.ofInt 64 (n : Int))
  have b4 := and_sign hw h1 (BitVec.ofInt 64 (n : Int))
  have b5 := sign_bit h1 (BitVec.ofInt 64 (n : Int))
  rw [hv] at b1 b2 b3 b5
  cases signed with
  | false =>
    simp only [Bool.false_eq_true, if_false, BitVec.and_zero, bne_self_eq_false, Bool.and_false]
    cases isHex with
    | true =>
      by_cases h : n < 2 ^ w
      · have hz : (BitVec.ofInt 64 (n : Int) &&& 0 != 0) = false := by
          have : BitVec.ofInt 64 (n : Int) &&& (0 : BitVec 64) = 0 := BitVec.and_zero
          rw [this]; rfl
        simp only [hz, Bool.and_false, b1.mpr h, h, ofPattern, bne_self_eq_false, Bool.false_eq_true, if_false, if_true, false_and]
      · have : ¬ (BitVec.ofInt 64 (n : Int) &&& ~~~ mask w = 0) := fun e => h (b1.mp e)
        simp only [if_true, h, if_false, bne_iff_ne, ne_eq, this, not_false_eq_true]
    | false =>
      by_cases h : n < 2 ^ w
      · simp only [b2.mpr h, h, bne_self_eq_false, Bool.false_eq_true, if_false, if_true, Bool.false_and]
      · have : ¬ (BitVec.ofInt 64 (n : Int) &&& mask w = BitVec.ofInt 64 n) := fun e => h (b2.mp e)
        simp only [if_true, h, if_false, bne_iff_ne, ne_eq, this, not_false_eq_true, Bool.false_eq_true]
  | true =>
    simp only [if_true, mask_half hw h1]
    cases isHex with
    | true =>
      by_cases h : n < 2 ^ w
      · have e1 := b1.mpr h
        simp only [if_true, e1, bne_self_eq_false, Bool.false_eq_true, if_false, h, Bool.true_and]
        by_cases hs : 2 ^ (w - 1) ≤ n
        · have hb := (b5 h).mpr hs
          have hne : ¬ (BitVec.ofInt 64 (n : Int) &&& (mask (w - 1) + 1) = 0) := by
            rw [b4, hb]; decide
          simp only [bne_iff_ne, ne_eq, hne, not_false_eq_true, if_true, ofPattern, hs, and_self,
            or_overflow hw n h]
        · have hb : (BitVec.ofInt 64 (n : Int)).getLsbD (w - 1) = false := by
            rw [← Bool.not_eq_true, b5 h]; exact hs
          simp only [bne_iff_ne, ne_eq, b4.mpr hb, not_true, if_false, ofPattern, hs, and_false, true_and]
      · have : ¬ (BitVec.ofInt 64 (n : Int) &&& ~~~ mask w = 0) := fun e => h (b1.mp e)
        simp only [if_true, h, if_false, bne_iff_ne, ne_eq, this, not_false_eq_true]
    | false =>
      by_cases h : n < 2 ^ (w - 1)
      · simp only [b3.mpr h, h, bne_self_eq_false, Bool.false_eq_true, if_false, if_true, Bool.false_and]
      · have : ¬ (BitVec.ofInt 64 (n : Int) &&& mask (w - 1) = BitVec.ofInt 64 n) := fun e => h (b3.mp e)
        simp only [if_true, h, if_false, bne_iff_ne, ne_eq, this, not_false_eq_true, Bool.false_eq_true]

theorem checkRange_neg {w : Nat} (hw : w ≤ 64) (h1 : 1 ≤ w) (n : Nat)
    (hn0 : 0 < n) (hn : n ≤ 2 ^ 63) :
    checkRange true (BitVec.ofInt 64 (-(n : Int))) ⟨w, .signedInt⟩ false =
      if n ≤ 2 ^ (w - 1) then some (BitVec.ofInt 64 (-(n : Int))) else none := by
  have hv : (~~~ BitVec.ofInt 64 (-(n : Int))).toNat = n - 1 := by
    rw [BitVec.toNat_not, BitVec.toNat_ofInt]
    simp only [Nat.reducePow] at hn ⊢
    omega
  unfold checkRange
  have hab : NumberType.assumedBitWidth ⟨w, .signedInt⟩ = w := rfl
  have hm : (if w = 64 then (-1 : BitVec 64) else (1#64 <<< w) - 1) = mask w := rfl
  simp only [hab, hm, Bool.true_or, if_true, mask_half hw h1, Bool.false_and, Bool.false_eq_true, if_false]
  have b1 := and_overflow_zero hw (~~~ BitVec.ofInt 64 (-(n : Int)))
  have b4 := and_sign hw h1 (~~~ BitVec.ofInt 64 (-(n : Int)))
  have b5 := sign_bit h1 (~~~ BitVec.ofInt 64 (-(n : Int)))
  rw [← and_eq_right] at b1
  have b6 := and_eq_right (BitVec.ofInt 64 (-(n : Int))) (mask (w - 1) + 1)
  rw [hv] at b1 b5
  have hp := pow_pos (w - 1)
  by_cases h : n ≤ 2 ^ (w - 1)
  · have hlt : n - 1 < 2 ^ w := by rw [pow_half h1]; omega
    have hb : (~~~ BitVec.ofInt 64 (-(n : Int))).getLsbD (w - 1) = false := by
      rw [← Bool.not_eq_true, b5 hlt]; omega
    have e2 := b6.mpr (b4.mpr hb)
    simp only [b1.mpr hlt, e2, bne_self_eq_false, Bool.or_false, Bool.false_eq_true, if_false, h, if_true]
  · simp only [h, if_false]
    by_cases hlt : n - 1 < 2 ^ w
    · have hb := (b5 hlt).mpr (by omega)
      have hne : ¬ (BitVec.ofInt 64 (-(n : Int)) &&& (mask (w - 1) + 1) = mask (w - 1) + 1) := by
        rw [b6, b4, hb]; decide
      simp only [bne_iff_ne, ne_eq, hne, not_false_eq_true, Bool.or_eq_true, or_true, if_true]
    · have hne : ¬ (BitVec.ofInt 64 (-(n : Int)) &&& ~~~ mask w = ~~~ mask w) := fun e => hlt (b1.mp e)
      simp only [bne_iff_ne, ne_eq, hne, not_false_eq_true, Bool.or_eq_true, true_or, if_true]

theorem emitWords_eq (w : Nat) (v : Int) : emitWords w (BitVec.ofInt 64 v) = words w v := by
  have low : ∀ b : BitVec 64, (0x00000000ffffffff#64 &&& b).setWidth 32 = b.setWidth 32 := by
    intro b
    apply BitVec.eq_of_toNat_eq
    rw [BitVec.toNat_setWidth, BitVec.toNat_setWidth, BitVec.and_comm, BitVec.toNat_and]
    have : (0x00000000ffffffff#64).toNat = 2 ^ 32 - 1 := by decide
    rw [this, Nat.and_two_pow_sub_one_eq_mod, Nat.mod_mod]
  have hi : ∀ b : BitVec 64, ((0xffffffff00000000#64 &&& b) >>> 32).setWidth 32 = (b >>> 32).setWidth 32 := by
    intro b
    ext i hi
    have key : ∀ i, i < 32 → (0xffffffff00000000#64).getLsbD (32 + i) = true := by decide
    simp only [BitVec.getElem_setWidth, BitVec.getLsbD_ushiftRight, BitVec.getLsbD_and, key i hi, Bool.true_and]
  have l2 : (BitVec.ofInt 64 v).setWidth 32 = BitVec.ofInt 32 v := by
    apply BitVec.eq_of_toNat_eq
    rw [BitVec.toNat_setWidth, BitVec.toNat_ofInt, BitVec.toNat_ofInt]
    simp only [Nat.reducePow]
    omega
  have h2 : (BitVec.ofInt 64 v >>> 32).setWidth 32 = BitVec.ofInt 32 (v / 2 ^ 32) := by
    apply BitVec.eq_of_toNat_eq
    rw [BitVec.toNat_setWidth, BitVec.toNat_ushiftRight, BitVec.toNat_ofInt, BitVec.toNat_ofInt]
    simp only [Nat.reducePow, Nat.shiftRight_eq_div_pow]
    omega
  unfold emitWords words
  split
  · rename_i h
    rw [if_neg (by omega), low, hi, l2, h2]
  · rename_i h
    rw [if_pos (by omega), l2]

end Verif.ParseNumber
