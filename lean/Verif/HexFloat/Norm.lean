import Verif.HexFloat.RoundTrip
import Verif.HexFloat.Spec

/-! Normalizing a value -/
set_option linter.unusedSimpArgs false
set_option linter.unusedVariables false
namespace Verif.HexFloat

section
variable {F : Fmt} {s x m : Nat} (hs : s < 2) (hx : x < 2 ^ F.e) (hm : m < 2 ^ F.f)
include hs hx hm

theorem enc_neg : F.neg (F.enc s x m) ↔ s = 1 := by
  rw [Fmt.neg, enc_div_top hs hx hm]; omega

theorem enc_expField : F.expField (F.enc s x m) = x := by
  rw [Fmt.expField, enc_div hs hx hm, Nat.add_comm, Nat.add_mul_mod_self_right, Nat.mod_eq_of_lt hx]

theorem enc_fracField : F.fracField (F.enc s x m) = m := enc_mod hs hx hm

theorem enc_mag : F.mag (F.enc s x m) = (if x = 0 then m else 2 ^ F.f + m) * 2 ^ max x 1 := by
  rw [Fmt.mag, enc_expField hs hx hm, enc_fracField hs hx hm]

end

section
variable {F : Fmt} (hF : F.Shape) {s x m : Nat} (hs : s < 2) (hx : x < 2 ^ F.e) (hm : m < 2 ^ F.f)
include hF hs hx hm

theorem enc_unbiased : F.unbiasedExp (F.enc s x m) = (x : Int) - F.bias := by
  rw [Fmt.unbiasedExp, enc_expBits hs hx hm]
  have h1 := hF.bias; have h2 := hF.room; have h3 := hF.fits; have h4 := hF.sum
  have e : ((2 ^ (F.W - 1) : Nat) : Int) = 2 ^ (F.W - 1) := by push_cast; rfl
  apply wrap_eq (by omega) <;> rw [← e] <;> omega

theorem isNan_enc : F.isNan (F.enc s x m) = true ↔ F.NaN (F.enc s x m) := by
  unfold Fmt.isNan Fmt.NaN
  rw [enc_expField hs hx hm, enc_fracField hs hx hm]
  have hp := two_pow_pos F.e; have hq := two_pow_pos F.f
  rcases hsp : F.special with _ | mk | _ <;> dsimp only
  · rw [enc_and_exp hs hx hm, Fmt.fracMask, and_mask, enc_mod hs hx hm, Fmt.expMask, setBits, Nat.shiftLeft_eq]
    simp only [Bool.and_eq_true, beq_iff_eq, bne_iff_ne, ne_eq, Nat.mul_left_inj (Nat.pos_iff_ne_zero.1 hq)]
  · have := hF.mask mk hsp
    rw [this]
    simp only [beq_iff_eq, Nat.and_two_pow_sub_one_eq_mod]
    have hlow := enc_low_lt hs hx hm
    have : F.enc s x m % 2 ^ (F.e + F.f) = x * 2 ^ F.f + m := by
      have : F.enc s x m = (x * 2 ^ F.f + m) + s * 2 ^ (F.e + F.f) := by unfold Fmt.enc; omega
      rw [this, Nat.add_mul_mod_self_right, Nat.mod_eq_of_lt hlow]
    rw [this]
    have e : 2 ^ (F.e + F.f) - 1 = (2 ^ F.e - 1) * 2 ^ F.f + (2 ^ F.f - 1) := by
      rw [Nat.pow_add, Nat.sub_mul, Nat.one_mul]
      have : 2 ^ F.f ≤ 2 ^ F.e * 2 ^ F.f := Nat.le_mul_of_pos_left _ hp
      omega
    rw [e]
    constructor
    · intro h
      have h1 := congrArg (· / 2 ^ F.f) h
      have h2 := congrArg (· % 2 ^ F.f) h
      rw [Nat.add_comm, Nat.add_mul_div_right _ _ hq, Nat.div_eq_of_lt hm, Nat.add_comm ((2 ^ F.e - 1) * 2 ^ F.f),
        Nat.add_mul_div_right _ _ hq, Nat.div_eq_of_lt (by omega)] at h1
      rw [Nat.add_comm, Nat.add_mul_mod_self_right, Nat.mod_eq_of_lt hm, Nat.add_comm ((2 ^ F.e - 1) * 2 ^ F.f),
        Nat.add_mul_mod_self_right, Nat.mod_eq_of_lt (by omega)] at h2
      omega
    · rintro ⟨h1, h2⟩; rw [h1, h2]
  · simp

theorem isInf_enc : F.isInf (F.enc s x m) = true ↔ F.Inf (F.enc s x m) := by
  unfold Fmt.isInf Fmt.Inf
  rw [enc_expField hs hx hm, enc_fracField hs hx hm]
  have hq := two_pow_pos F.f
  rcases hsp : F.special with _ | mk | _ <;> dsimp only
  · rw [enc_and_exp hs hx hm, Fmt.fracMask, and_mask, enc_mod hs hx hm, Fmt.expMask, setBits, Nat.shiftLeft_eq]
    simp only [Bool.and_eq_true, beq_iff_eq, bne_iff_ne, ne_eq, Nat.mul_left_inj (Nat.pos_iff_ne_zero.1 hq)]
  · simp
  · simp

end

/-- The loop that normalizes a subnormal number. -/
theorem normLoop_spec {F : Fmt} (hF : F.Shape) (j : Nat) : ∀ (m : Nat) (x : Int),
    j < F.f → 2 ^ (F.f - 1 - j) ≤ m → m < 2 ^ (F.f - j) → -2 ^ (F.W - 1) + j ≤ x → x < 2 ^ (F.W - 1) →
    F.normLoop m x = some (x - j) := by
  have hfirst : F.firstExpBit >>> 1 = 1 <<< (F.f - 1) := by
    rw [hF.firstExpBit, Nat.shiftRight_eq_div_pow, Nat.one_shiftLeft, Nat.pow_one]
    have := hF.f_pos
    have e : 2 ^ F.f = 2 * 2 ^ (F.f - 1) := by rw [← Nat.pow_succ']; congr 1; omega
    omega
  induction j with
  | zero =>
    intro m x hj h1 h2 hx1 hx2
    rw [Fmt.normLoop, hfirst, and_bit]
    have : m / 2 ^ (F.f - 1) = 1 := by
      have e : 2 ^ F.f = 2 ^ (F.f - 1) * 2 := by rw [← Nat.pow_succ]; congr 1; omega
      simp only [Nat.sub_zero] at h1 h2
      rw [e] at h2
      exact Nat.div_eq_of_lt_le (by omega) (by omega)
    rw [this]
    have := two_pow_pos (F.f - 1)
    rw [if_neg (by omega)]
    simp
  | succ j ih =>
    intro m x hj h1 h2 hx1 hx2
    rw [Fmt.normLoop, hfirst, and_bit]
    have h3 : m < 2 ^ (F.f - 1) := Nat.lt_of_lt_of_le h2 (Nat.pow_le_pow_right (by decide) (by omega))
    rw [Nat.div_eq_of_lt h3, if_pos (by simp)]
    have e1 : 2 ^ (F.f - j) = 2 * 2 ^ (F.f - (j + 1)) := by
      rw [← Nat.pow_succ']; congr 1; omega
    have e2 : 2 ^ (F.f - 1 - j) = 2 * 2 ^ (F.f - 1 - (j + 1)) := by
      rw [← Nat.pow_succ']; congr 1; omega
    have hsum := hF.sum; have hfits := hF.fits
    have hlt : m <<< 1 < 2 ^ F.W := by
      have : 2 ^ (F.f - j) ≤ 2 ^ F.W := Nat.pow_le_pow_right (by decide) (by omega)
      rw [Nat.shiftLeft_eq]; omega
    have hu : u F.W (m <<< 1) = m * 2 := by
      rw [u, Nat.mod_eq_of_lt hlt, Nat.shiftLeft_eq]
    have hw : wrap F.W (x - 1) = x - 1 := by
      apply wrap_eq (by omega) <;> omega
    rw [hu, hw, ih _ _ (by omega) (by omega) (by omega) (by omega) (by omega)]
    congr 1
    push_cast; omega

theorem checkLoop_spec {W : Nat} (hW : 0 < W) (j : Nat) : ∀ (K m : Nat) (x : Int),
    j < K → 2 ^ (K - 1 - j) ≤ m → m < 2 ^ (K - j) → -2 ^ (W - 1) + j + 1 ≤ x → x < 2 ^ (W - 1) →
    checkLoop W m K x = x - (j + 1) := by
  induction j with
  | zero =>
    intro K m x hj h1 h2 hx1 hx2
    obtain ⟨k, rfl⟩ : ∃ k, K = k + 1 := ⟨K - 1, by omega⟩
    simp only [Nat.add_sub_cancel, Nat.sub_zero] at h1 h2
    rw [checkLoop, bit_and]
    have : m / 2 ^ k = 1 := by
      rw [Nat.pow_succ] at h2
      exact Nat.div_eq_of_lt_le (by omega) (by omega)
    rw [this]
    have := two_pow_pos k
    rw [if_pos (by omega), wrap_eq hW (by omega) (by omega)]
    simp
  | succ j ih =>
    intro K m x hj h1 h2 hx1 hx2
    obtain ⟨k, rfl⟩ : ∃ k, K = k + 1 := ⟨K - 1, by omega⟩
    simp only [Nat.add_sub_cancel] at h1
    have e : k + 1 - (j + 1) = k - j := by omega
    rw [e] at h2
    rw [checkLoop, bit_and]
    have h3 : m < 2 ^ k := Nat.lt_of_lt_of_le h2 (Nat.pow_le_pow_right (by decide) (by omega))
    rw [Nat.div_eq_of_lt h3, if_neg (by simp), wrap_eq hW (by omega) (by omega)]
    have e2 : k - (j + 1) = k - 1 - j := by omega
    rw [e2] at h1
    rw [ih k m (x - 1) (by omega) h1 h2 (by omega) (by omega)]
    push_cast; omega

theorem shlTimes_spec {F : Fmt} (n : Nat) : ∀ m, F.shlTimes n m % 2 ^ F.W = (m * 2 ^ n) % 2 ^ F.W := by
  induction n with
  | zero => intro m; simp [Fmt.shlTimes]
  | succ n ih =>
    intro m
    rw [Fmt.shlTimes, ih, u, Nat.shiftLeft_eq, Nat.mod_mul_mod, Nat.pow_one, Nat.mul_assoc, ← Nat.pow_succ']

/-- A number other than zero, normalized: exponent and fraction. -/
structure Normal (F : Fmt) (b : Nat) (E : Int) (M : Nat) : Prop where
  exp : F.castExp b = E
  sig : F.normalizedSig b = some M
  lt : M < 2 ^ F.f
  lo : 0 < E + F.bias + F.f
  hi : E + F.bias < 2 ^ F.e
  mag : F.mag b * 2 ^ F.f = (2 ^ F.f + M) * 2 ^ (E + F.bias + F.f).toNat

section
variable {F : Fmt} (hF : F.Shape)
include hF

theorem int_room : (F.f : Int) + 2 ^ F.e + 40 < 2 ^ (F.W - 1) := by
  have h : ((F.f + 2 ^ F.e + 40 : Nat) : Int) < ((2 ^ (F.W - 1) : Nat) : Int) := by exact_mod_cast hF.room
  push_cast at h; exact h

theorem int_bias2 : (F.bias : Int) * 2 + 2 = 2 ^ F.e := by
  have h : ((2 * F.bias + 2 : Nat) : Int) = ((2 ^ F.e : Nat) : Int) := by exact_mod_cast hF.bias2
  push_cast at h; omega

theorem exists_lead' {f m : Nat} (h0 : 0 < m) (hm : m < 2 ^ f) :
    ∃ k, k < f ∧ 2 ^ (f - 1 - k) ≤ m ∧ m < 2 ^ (f - k) := by
  refine ⟨f - 1 - m.log2, ?_, ?_, ?_⟩
  · have := (Nat.log2_lt (by omega)).2 hm; omega
  · have := (Nat.log2_lt (by omega)).2 hm
    have e : f - 1 - (f - 1 - m.log2) = m.log2 := by omega
    rw [e]; exact Nat.log2_self_le (by omega)
  · have := (Nat.log2_lt (by omega)).2 hm
    have e : f - (f - 1 - m.log2) = m.log2 + 1 := by omega
    rw [e]; exact Nat.lt_log2_self

theorem normal_normal {s x m : Nat} (hs : s < 2) (hx : x < 2 ^ F.e) (hm : m < 2 ^ F.f) (h0 : 0 < x) :
    Normal F (F.enc s x m) ((x : Int) - F.bias) m := by
  have hub := enc_unbiased hF hs hx hm
  have hne : ¬ ((x : Int) - F.bias = F.minExp) := by unfold Fmt.minExp; omega
  have hz : ¬ (x * 2 ^ F.f + m = 0) := by
    have := Nat.mul_pos h0 (two_pow_pos F.f); omega
  refine ⟨?_, ?_, hm, by omega, ?_, ?_⟩
  · rw [Fmt.castExp, hub, if_neg hne]
  · have hn : F.normalizedExp (F.enc s x m) = some ((x : Int) - F.bias) := by
      rw [Fmt.normalizedExp, hF.enc_unsigned hs hx hm, hub, if_neg (by rw [Bool.and_eq_true, beq_iff_eq]; exact fun h => hz h.2), if_neg hne]
    rw [Fmt.normalizedSig, hn]
    have e : (F.minExp - ((x : Int) - F.bias) + 1).toNat = 0 := by unfold Fmt.minExp; omega
    simp only [Option.bind_eq_bind, Option.bind_some, e, Fmt.shlTimes, enc_sigBits hs hx hm, Fmt.fracMask, and_mask,
      Nat.mod_eq_of_lt hm]
    rfl
  · have : (x : Int) < 2 ^ F.e := by exact_mod_cast hx
    omega
  · rw [enc_mag hs hx hm, if_neg (by omega), Nat.max_eq_left (by omega), Nat.mul_assoc, ← Nat.pow_add]
    congr 2; omega

theorem normal_denorm {s m k : Nat} (hs : s < 2) (hm : m < 2 ^ F.f) (hk : k < F.f) (h1 : 2 ^ (F.f - 1 - k) ≤ m)
    (h2 : m < 2 ^ (F.f - k)) : Normal F (F.enc s 0 m) (-(F.bias : Int) - k) (m * 2 ^ (k + 1) - 2 ^ F.f) := by
  have hx : 0 < 2 ^ F.e := two_pow_pos _
  have hub := enc_unbiased hF hs hx hm
  have hpos : 0 < m := Nat.lt_of_lt_of_le (two_pow_pos _) h1
  have e1 : 2 ^ F.f = 2 ^ (F.f - 1 - k) * 2 ^ (k + 1) := by rw [← Nat.pow_add]; congr 1; omega
  have e2 : 2 * 2 ^ F.f = 2 ^ (F.f - k) * 2 ^ (k + 1) := by rw [← Nat.pow_succ', ← Nat.pow_add]; congr 1; omega
  have d1 : 2 ^ F.f ≤ m * 2 ^ (k + 1) := by rw [e1]; exact Nat.mul_le_mul_right _ h1
  have d2 : m * 2 ^ (k + 1) < 2 * 2 ^ F.f := by rw [e2]; exact Nat.mul_lt_mul_of_pos_right h2 (two_pow_pos _)
  have hroom := int_room hF; have hb2 := int_bias2 hF
  have hsum := hF.sum; have hfits := hF.fits
  have hub' : F.unbiasedExp (F.enc s 0 m) = -(F.bias : Int) := by rw [hub]; omega
  have hmin : -(F.bias : Int) = F.minExp := rfl
  refine ⟨?_, ?_, by omega, by omega, by omega, ?_⟩
  · rw [Fmt.castExp, hub', if_pos hmin, wrap_eq (by omega) (by omega) (by omega), enc_sigBits hs hx hm,
      checkLoop_spec (by omega) k F.f m _ hk h1 h2 (by omega) (by omega)]
    omega
  · have hz : ¬ (0 * 2 ^ F.f + m = 0) := by omega
    have hn : F.normalizedExp (F.enc s 0 m) = some (-(F.bias : Int) - k) := by
      rw [Fmt.normalizedExp, hF.enc_unsigned hs hx hm, hub', if_neg (by rw [Bool.and_eq_true, beq_iff_eq]; exact fun h => hz h.2), if_pos hmin, enc_sigBits hs hx hm,
        normLoop_spec hF k m _ hk h1 h2 (by omega) (by omega)]
    rw [Fmt.normalizedSig, hn]
    have e : (F.minExp - (-(F.bias : Int) - k) + 1).toNat = k + 1 := by unfold Fmt.minExp; omega
    simp only [Option.bind_eq_bind, Option.bind_some, e, enc_sigBits hs hx hm, Fmt.fracMask, and_mask]
    have hsh := shlTimes_spec (F := F) (k + 1) m
    have hmod := congrArg (· % 2 ^ F.f) hsh
    have hdvd : 2 ^ F.f ∣ 2 ^ F.W := Nat.pow_dvd_pow 2 (by omega)
    rw [Nat.mod_mod_of_dvd _ hdvd, Nat.mod_mod_of_dvd _ hdvd] at hmod
    rw [hmod]
    have : m * 2 ^ (k + 1) % 2 ^ F.f = m * 2 ^ (k + 1) - 2 ^ F.f := by
      have h : m * 2 ^ (k + 1) = (m * 2 ^ (k + 1) - 2 ^ F.f) + 2 ^ F.f := by omega
      rw [h, Nat.add_mod_right, Nat.mod_eq_of_lt (by omega)]
      omega
    rw [this]; rfl
  · rw [enc_mag hs hx hm, if_pos rfl, Nat.add_sub_cancel' d1]
    have e3 : (-(F.bias : Int) - k + F.bias + F.f).toNat = F.f - k := by omega
    rw [e3, Nat.mul_assoc m (2 ^ (k + 1)), ← Nat.pow_add]
    have e4 : k + 1 + (F.f - k) = 1 + F.f := by omega
    rw [e4, Nat.pow_add, Nat.mul_assoc]
    rfl

/-- Every number other than zero can be normalized. -/
theorem exists_normal {s x m : Nat} (hs : s < 2) (hx : x < 2 ^ F.e) (hm : m < 2 ^ F.f) (h0 : ¬ (x = 0 ∧ m = 0)) :
    ∃ E M, Normal F (F.enc s x m) E M := by
  by_cases hx0 : x = 0
  · subst hx0
    obtain ⟨k, k1, k2, k3⟩ := exists_lead' hF (Nat.pos_of_ne_zero (fun h => h0 ⟨rfl, h⟩)) hm
    exact ⟨_, _, normal_denorm hF hs hm k1 k2 k3⟩
  · exact ⟨_, _, normal_normal hF hs hx hm (Nat.pos_of_ne_zero hx0)⟩

end

end Verif.HexFloat
