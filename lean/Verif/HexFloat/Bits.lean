import Verif.HexFloat.Model

/-! Arithmetic of bit patterns -/
set_option linter.unusedSimpArgs false
set_option linter.unusedVariables false
namespace Verif.HexFloat

theorem two_pow_pos (n : Nat) : 0 < 2 ^ n := Nat.pow_pos (by decide)

theorem and_mask (x n : Nat) : x &&& setBits 0 n = x % 2 ^ n := by
  simp [setBits, Nat.and_two_pow_sub_one_eq_mod]

theorem and_setBits (x i n : Nat) : x &&& setBits i n = (x / 2 ^ i % 2 ^ n) * 2 ^ i := by
  apply Nat.eq_of_testBit_eq
  intro j
  rw [Nat.testBit_mul_two_pow, Nat.testBit_mod_two_pow, Nat.testBit_div_two_pow, Nat.testBit_and,
    setBits, Nat.testBit_shiftLeft, Nat.testBit_two_pow_sub_one]
  by_cases h : i ≤ j
  · simp [h, Nat.add_sub_cancel' h, Nat.sub_add_cancel h, Bool.and_comm]
  · simp [h]

theorem and_bit (x k : Nat) : x &&& (1 <<< k) = (x / 2 ^ k % 2) * 2 ^ k := by
  have := and_setBits x k 1
  simpa [setBits] using this

theorem bit_and (x k : Nat) : (1 <<< k) &&& x = (x / 2 ^ k % 2) * 2 ^ k := by
  rw [Nat.and_comm, and_bit]

theorem or_shl {a b i : Nat} (h : b < 2 ^ i) : a * 2 ^ i ||| b = a * 2 ^ i + b := by
  rw [Nat.mul_comm, Nat.two_pow_add_eq_or_of_lt h]

theorem or_shl' {a b i : Nat} (h : b < 2 ^ i) : b ||| a * 2 ^ i = a * 2 ^ i + b := by
  rw [Nat.or_comm, or_shl h]

/-- The bit pattern with the given sign, exponent bits and fraction. -/
def Fmt.enc (F : Fmt) (s x m : Nat) : Nat := s * 2 ^ (F.e + F.f) + x * 2 ^ F.f + m

theorem Fmt.enc_surj (F : Fmt) {b : Nat} (hb : b < 2 ^ (F.e + F.f + 1)) :
    ∃ s x m, s < 2 ∧ x < 2 ^ F.e ∧ m < 2 ^ F.f ∧ b = F.enc s x m := by
  refine ⟨b / 2 ^ (F.e + F.f), b / 2 ^ F.f % 2 ^ F.e, b % 2 ^ F.f, ?_, ?_, ?_, ?_⟩
  · rw [Nat.div_lt_iff_lt_mul (two_pow_pos _)]
    rw [Nat.pow_succ] at hb; omega
  · exact Nat.mod_lt _ (two_pow_pos _)
  · exact Nat.mod_lt _ (two_pow_pos _)
  · unfold Fmt.enc
    have h1 := Nat.div_add_mod b (2 ^ F.f)
    have h2 := Nat.div_add_mod (b / 2 ^ F.f) (2 ^ F.e)
    rw [Nat.div_div_eq_div_mul, ← Nat.pow_add, Nat.add_comm F.f F.e] at h2
    have h3 : 2 ^ (F.e + F.f) = 2 ^ F.e * 2 ^ F.f := Nat.pow_add ..
    rw [h3] at h2 ⊢
    generalize b / (2 ^ F.e * 2 ^ F.f) = s at *
    generalize b / 2 ^ F.f % 2 ^ F.e = x at *
    generalize b % 2 ^ F.f = m at *
    rw [← h1, ← h2]
    grind

section
variable {F : Fmt} {s x m : Nat} (hs : s < 2) (hx : x < 2 ^ F.e) (hm : m < 2 ^ F.f)
include hs hx hm

theorem enc_lt : F.enc s x m < 2 ^ (F.e + F.f + 1) := by
  unfold Fmt.enc
  have h1 : x * 2 ^ F.f + m < 2 ^ (F.e + F.f) := by
    rw [Nat.pow_add]
    calc x * 2 ^ F.f + m < x * 2 ^ F.f + 2 ^ F.f := by omega
      _ = (x + 1) * 2 ^ F.f := by rw [Nat.add_mul, Nat.one_mul]
      _ ≤ 2 ^ F.e * 2 ^ F.f := Nat.mul_le_mul_right _ hx
  rw [Nat.pow_succ]
  have : s * 2 ^ (F.e + F.f) ≤ 1 * 2 ^ (F.e + F.f) := Nat.mul_le_mul_right _ (by omega)
  omega

theorem enc_low_lt : x * 2 ^ F.f + m < 2 ^ (F.e + F.f) := by
  rw [Nat.pow_add]
  calc x * 2 ^ F.f + m < x * 2 ^ F.f + 2 ^ F.f := by omega
    _ = (x + 1) * 2 ^ F.f := by rw [Nat.add_mul, Nat.one_mul]
    _ ≤ 2 ^ F.e * 2 ^ F.f := Nat.mul_le_mul_right _ hx

theorem enc_div : F.enc s x m / 2 ^ F.f = s * 2 ^ F.e + x := by
  unfold Fmt.enc
  have : s * 2 ^ (F.e + F.f) + x * 2 ^ F.f + m = m + (s * 2 ^ F.e + x) * 2 ^ F.f := by
    rw [Nat.pow_add]; grind
  rw [this, Nat.add_mul_div_right _ _ (two_pow_pos _), Nat.div_eq_of_lt hm, Nat.zero_add]

theorem enc_mod : F.enc s x m % 2 ^ F.f = m := by
  unfold Fmt.enc
  have : s * 2 ^ (F.e + F.f) + x * 2 ^ F.f + m = m + (s * 2 ^ F.e + x) * 2 ^ F.f := by
    rw [Nat.pow_add]; grind
  rw [this, Nat.add_mul_mod_self_right, Nat.mod_eq_of_lt hm]

theorem enc_div_top : F.enc s x m / 2 ^ (F.e + F.f) = s := by
  unfold Fmt.enc
  have h := enc_low_lt hs hx hm
  have : s * 2 ^ (F.e + F.f) + x * 2 ^ F.f + m = (x * 2 ^ F.f + m) + s * 2 ^ (F.e + F.f) := by omega
  rw [this, Nat.add_mul_div_right _ _ (two_pow_pos _), Nat.div_eq_of_lt h, Nat.zero_add]

theorem enc_and_exp : F.enc s x m &&& F.expMask = x * 2 ^ F.f := by
  rw [Fmt.expMask, and_setBits, enc_div hs hx hm, Nat.add_comm, Nat.add_mul_mod_self_right, Nat.mod_eq_of_lt hx]

theorem enc_expBits : F.expBits (F.enc s x m) = x := by
  rw [Fmt.expBits, enc_and_exp hs hx hm, Nat.shiftRight_eq_div_pow, Nat.mul_div_cancel _ (two_pow_pos _)]

theorem enc_sigBits : F.sigBits (F.enc s x m) = m := by
  rw [Fmt.sigBits, Fmt.fracMask, and_mask, enc_mod hs hx hm]

end

/-- The formats with a sign, an exponent and a fraction. -/
structure Fmt.Shape (F : Fmt) : Prop where
  sum : F.used = F.e + F.f + 1
  fits : F.used ≤ F.W
  zero : F.hasZero = true
  sign : F.hasSign = true
  f_pos : 0 < F.f
  e_pos : 0 < F.e
  small : F.W ≤ 64
  bias_pos : 0 < F.bias
  bias2 : 2 * F.bias + 2 = 2 ^ F.e
  room : F.f + 2 ^ F.e + 40 < 2 ^ (F.W - 1)
  mask : ∀ m, F.special = .mask m → m = 2 ^ (F.e + F.f) - 1
  nan : F.nanPattern < 2 ^ (F.e + F.f)
  nan_mask : ∀ m, F.special = .mask m → F.nanPattern = 2 ^ (F.e + F.f) - 1
  nan_none : F.special = .none → F.hasNaN = false
  inf : F.hasInf = true → F.special = .ieee

/-- Those of which every bit is used. -/
structure Fmt.Full (F : Fmt) : Prop extends Fmt.Shape F where
  used : F.used = F.W
  nib : F.nibbles * 4 ≤ F.W

section
variable {F : Fmt} (hF : F.Shape)
include hF

theorem Fmt.Shape.bias : F.bias < 2 ^ F.e := by have := hF.bias2; omega

theorem Fmt.Shape.signMask : F.signMask = 2 ^ (F.e + F.f) := by
  simp only [Fmt.signMask, hF.sign, if_true, u]
  have h := hF.sum; have h2 := hF.fits
  have : F.used - 1 = F.e + F.f := by omega
  rw [this, Nat.one_shiftLeft, Nat.mod_eq_of_lt]
  exact Nat.pow_lt_pow_right (by decide) (by omega)

theorem Fmt.Shape.and_sign (b : Nat) : b &&& F.signMask = (b / 2 ^ (F.e + F.f) % 2) * 2 ^ (F.e + F.f) := by
  rw [hF.signMask, ← Nat.one_shiftLeft, and_bit, Nat.one_shiftLeft]

theorem Fmt.Shape.enc_and_sign {s x m : Nat} (hs : s < 2) (hx : x < 2 ^ F.e) (hm : m < 2 ^ F.f) :
    F.enc s x m &&& F.signMask = s * 2 ^ (F.e + F.f) := by
  rw [hF.and_sign, enc_div_top hs hx hm, Nat.mod_eq_of_lt hs]

theorem Fmt.Shape.firstExpBit : F.firstExpBit = 2 ^ F.f := by
  have h := hF.sum; have h2 := hF.fits
  rw [Fmt.firstExpBit, u, Nat.one_shiftLeft, Nat.mod_eq_of_lt]
  exact Nat.pow_lt_pow_right (by decide) (by omega)

theorem Fmt.Shape.enc_unsigned {s x m : Nat} (hs : s < 2) (hx : x < 2 ^ F.e) (hm : m < 2 ^ F.f) :
    F.enc s x m &&& F.compl F.signMask = x * 2 ^ F.f + m := by
  have hlow := enc_low_lt hs hx hm
  have h := hF.sum; have h2 := hF.fits
  have hmod : F.enc s x m % 2 ^ (F.e + F.f) = x * 2 ^ F.f + m := by
    have : F.enc s x m = (x * 2 ^ F.f + m) + s * 2 ^ (F.e + F.f) := by unfold Fmt.enc; omega
    rw [this, Nat.add_mul_mod_self_right, Nat.mod_eq_of_lt hlow]
  rw [← hmod]
  apply Nat.eq_of_testBit_eq
  intro j
  rw [hF.signMask, Fmt.compl, Nat.testBit_and, Nat.testBit_xor, Nat.testBit_two_pow_sub_one,
    Nat.testBit_two_pow, Nat.testBit_mod_two_pow]
  by_cases h1 : j < F.e + F.f
  · simp [h1, show j < F.W by omega, show ¬ (F.e + F.f = j) by omega]
  · by_cases h3 : j = F.e + F.f
    · subst h3; simp [show F.e + F.f < F.W by omega]
    · have : (F.enc s x m).testBit j = false := by
        apply Nat.testBit_lt_two_pow
        exact Nat.lt_of_lt_of_le (enc_lt hs hx hm) (Nat.pow_le_pow_right (by decide) (by omega))
      simp [h1, this]

theorem Fmt.Shape.isNegative_enc {s x m : Nat} (hs : s < 2) (hx : x < 2 ^ F.e) (hm : m < 2 ^ F.f) :
    F.isNegative (F.enc s x m) = decide (s = 1) := by
  rw [Fmt.isNegative, hF.enc_and_sign hs hx hm]
  have := two_pow_pos (F.e + F.f)
  rcases Nat.lt_or_ge s 1 with h | h
  · have : s = 0 := by omega
    subst this; simp
  · have : s = 1 := by omega
    subst this; simp

end

end Verif.HexFloat
