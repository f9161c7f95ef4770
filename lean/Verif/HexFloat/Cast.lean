import Verif.HexFloat.Norm

/-! What `castTo` computes -/
set_option linter.unusedSimpArgs false
set_option linter.unusedVariables false
namespace Verif.HexFloat

theorem and_pow (x k : Nat) : x &&& 2 ^ k = (x / 2 ^ k % 2) * 2 ^ k := by
  rw [← Nat.one_shiftLeft, and_bit, Nat.one_shiftLeft]

theorem lost_or (l : Bool) (a b : Nat) : ((l || a != 0) || b != 0) = (l || a + 2 * b != 0) := by
  rw [Bool.eq_iff_iff]
  cases l <;> simp
  omega

theorem shrTimes_spec (n : Nat) : ∀ s l, shrTimes n s l = (s / 2 ^ n, l || s % 2 ^ n != 0) := by
  induction n with
  | zero => intro s l; simp [shrTimes, Nat.mod_one]
  | succ n ih =>
    intro s l
    rw [shrTimes, ih, Nat.shiftRight_eq_div_pow, Nat.pow_one, Nat.div_div_eq_div_mul, Nat.pow_succ', Nat.and_one_is_mod]
    have hm := Nat.mod_mul (x := s) (a := 2) (b := 2 ^ n)
    rw [hm, lost_or]

theorem Fmt.testBit_compl (F : Fmt) (m i : Nat) : (F.compl m).testBit i = ((decide (i < F.W)) ^^ m.testBit i) := by
  rw [Fmt.compl, Nat.testBit_xor, Nat.testBit_two_pow_sub_one]

theorem and_compl_frac {F : Fmt} (hF : F.Shape) {x : Nat} (hx : x < 2 ^ F.f) : x &&& F.compl F.fracMask = 0 := by
  apply Nat.eq_of_testBit_eq
  intro i
  rw [Nat.testBit_and, F.testBit_compl, Nat.zero_testBit, Fmt.fracMask, setBits, Nat.shiftLeft_zero,
    Nat.testBit_two_pow_sub_one]
  have := hF.sum; have := hF.fits
  by_cases h : i < F.f
  · simp [h]; omega
  · rw [Nat.testBit_lt_two_pow (Nat.lt_of_lt_of_le hx (Nat.pow_le_pow_right (by decide) (by omega)))]; rfl

theorem and_compl_bit {F : Fmt} (hF : F.Shape) : 2 ^ F.f &&& F.compl (2 ^ F.f) = 0 := by
  apply Nat.eq_of_testBit_eq
  intro i
  rw [Nat.testBit_and, F.testBit_compl, Nat.zero_testBit, Nat.testBit_two_pow]
  have := hF.sum; have := hF.fits
  by_cases h : F.f = i
  · simp [h]; omega
  · simp [h]

section
variable {G : Fmt} (hG : G.Shape)
include hG

theorem sign_or {s x m : Nat} (hs : s < 2) (hx : x < 2 ^ G.e) (hm : m < 2 ^ G.f) :
    (if decide (s = 1) then G.signMask else 0) ||| (x * 2 ^ G.f ||| m) = G.enc s x m := by
  rw [hG.signMask, or_shl hm]
  have hl := enc_low_lt hs hx hm
  have : (if (decide (s = 1)) = true then 2 ^ (G.e + G.f) else 0) = s * 2 ^ (G.e + G.f) := by
    have : s = 0 ∨ s = 1 := by omega
    rcases this with rfl | rfl <;> simp
  rw [this, or_shl hl]
  unfold Fmt.enc; omega

theorem setFrom_exp {y : Nat} (hy : y < 2 ^ G.e) : u G.W (y <<< G.f) &&& G.expMask = y * 2 ^ G.f := by
  have hsum := hG.sum; have hfits := hG.fits
  have hlt : y * 2 ^ G.f < 2 ^ G.W := by
    have h1 : y * 2 ^ G.f < 2 ^ G.e * 2 ^ G.f := Nat.mul_lt_mul_of_pos_right hy (two_pow_pos _)
    rw [← Nat.pow_add] at h1
    exact Nat.lt_of_lt_of_le h1 (Nat.pow_le_pow_right (by decide) (by omega))
  rw [u, Nat.shiftLeft_eq, Nat.mod_eq_of_lt hlt, Fmt.expMask, and_setBits, Nat.mul_div_cancel _ (two_pow_pos _),
    Nat.mod_eq_of_lt hy]

/-- Normal results -/
theorem setFrom_normal {s sig : Nat} {E : Int} (hs : s < 2) (hsig : sig < 2 ^ G.f) (up : Bool) (h1 : 0 < E + G.bias)
    (h2 : E ≤ G.bias) : G.setFrom (decide (s = 1)) E sig up = (G.enc s (E + G.bias).toNat sig, .success) := by
  have hb := hG.bias2; have hr := hG.room
  have hy : (E + G.bias).toNat < 2 ^ G.e := by omega
  have hE : ¬ (E ≤ G.minExp) := by unfold Fmt.minExp; omega
  have hE' : ¬ (E < G.minExp) := by unfold Fmt.minExp; omega
  have hE2 : ¬ (E = G.minExp) := by unfold Fmt.minExp; omega
  have e0 : (G.minExp - E).toNat = 0 := by unfold Fmt.minExp; omega
  have hsum := hG.sum; have hfits := hG.fits
  have e1 : ((E + G.bias) % ((2 ^ G.W : Nat) : Int)).toNat = (E + G.bias).toNat := by
    have : 2 ^ (G.W - 1) ≤ 2 ^ G.W := Nat.pow_le_pow_right (by decide) (by omega)
    rw [Int.emod_eq_of_lt (by omega) (by omega)]
  unfold Fmt.setFrom
  simp only [hE, hE', hE2, decide_false, Bool.false_and, e0, shrTimes, Bool.false_or, Bool.false_eq_true, if_false, e1]
  rw [setFrom_exp hG hy, and_compl_frac hG hsig, Fmt.fracMask, and_mask, Nat.mod_eq_of_lt hsig, sign_or hG hs hy hsig]
  simp

/-- Subnormal results -/
theorem setFrom_denorm {s sig : Nat} {E : Int} (hs : s < 2) (hsig : sig < 2 ^ G.f) (up : Bool) (h1 : E + G.bias ≤ 0) :
    ∃ g, g < 2 ^ G.f ∧
      g = (if (2 ^ G.f + sig) / 2 ^ (1 - G.bias - E).toNat = 0 ∧ up = true then 1
        else (2 ^ G.f + sig) / 2 ^ (1 - G.bias - E).toNat) ∧
      G.setFrom (decide (s = 1)) E sig up =
        (G.enc s 0 g, if (2 ^ G.f + sig) % 2 ^ (1 - G.bias - E).toNat ≠ 0 then .lostPrecision else .success) := by
  have hE : (E ≤ G.minExp) := by unfold Fmt.minExp; omega
  have hf := hG.f_pos
  obtain ⟨n, hn⟩ : ∃ n, (1 - G.bias - E).toNat = n + 1 := ⟨(1 - G.bias - E).toNat - 1, by omega⟩
  have e0 : (G.minExp - E).toNat = n := by unfold Fmt.minExp; omega
  have e2 : (if E < G.minExp then G.minExp else E) = G.minExp := by split <;> omega
  have e3 : sig ||| G.firstExpBit = 2 ^ G.f + sig := by
    rw [hG.firstExpBit]
    have := or_shl' (a := 1) hsig
    rwa [Nat.one_mul] at this
  have hlt : (2 ^ G.f + sig) / 2 ^ (n + 1) < 2 ^ G.f := by
    rw [Nat.div_lt_iff_lt_mul (two_pow_pos _), Nat.pow_succ]
    have := Nat.mul_le_mul_left (2 ^ G.f) (two_pow_pos n)
    rw [← Nat.mul_assoc]; omega
  have hone : 1 < 2 ^ G.f := Nat.one_lt_two_pow (by omega)
  refine ⟨_, ?_, rfl, ?_⟩
  · rw [hn]; split <;> assumption
  · rw [hn]
    have e4 : (2 ^ G.f + sig) >>> 1 / 2 ^ n = (2 ^ G.f + sig) / 2 ^ (n + 1) := by
      rw [Nat.shiftRight_eq_div_pow, Nat.pow_one, Nat.div_div_eq_div_mul, Nat.pow_succ']
    have e5 : (((2 ^ G.f + sig) &&& 1 != 0) || ((2 ^ G.f + sig) >>> 1 % 2 ^ n != 0)) =
        ((2 ^ G.f + sig) % 2 ^ (n + 1) != 0) := by
      rw [Nat.pow_succ', Nat.mod_mul, Nat.and_one_is_mod, Nat.shiftRight_eq_div_pow, Nat.pow_one]
      have := lost_or false ((2 ^ G.f + sig) % 2) ((2 ^ G.f + sig) / 2 % 2 ^ n)
      simpa only [Bool.false_or] using this
    have hd : (decide (E ≤ G.minExp) && G.f != 0) = true := by simp [hE]; omega
    have e6 : G.minExp + (G.bias : Int) = 0 := by unfold Fmt.minExp; omega
    unfold Fmt.setFrom
    simp only [hd, Bool.true_and, e0, e2, e3, shrTimes_spec, e4, e5, if_true, Bool.not_true, Bool.false_and, Bool.not_false,
      Bool.and_true, decide_true, e6, Int.zero_emod, Int.toNat_zero, Bool.and_eq_true, beq_iff_eq]
    have hx := setFrom_exp hG (two_pow_pos G.e)
    have hg : (if (2 ^ G.f + sig) / 2 ^ (n + 1) = 0 ∧ up = true then 1 else (2 ^ G.f + sig) / 2 ^ (n + 1)) < 2 ^ G.f := by
      split <;> assumption
    have hso := sign_or hG hs (two_pow_pos _) hg
    simp only [decide_eq_true_eq] at hso ⊢
    rw [hx, and_compl_frac hG hg, Fmt.fracMask, and_mask, Nat.mod_eq_of_lt hg, hso]
    by_cases h : (2 ^ G.f + sig) % 2 ^ (n + 1) = 0 <;> simp [h]

end

/-- Whether to round away from zero, for a quotient `t` and a remainder `r` out of `d`. -/
def Away (dir : Dir) (neg : Prop) (t r d : Nat) : Prop :=
  match dir with
  | .toZero => False
  | .toPosInf => ¬ neg
  | .toNegInf => neg
  | .nearestEven => d < 2 * r ∨ d = 2 * r ∧ t % 2 = 1

theorem roundAway_spec {n : Nat} (hn : 0 < n) (neg : Bool) (dir : Dir) (sig : Nat) :
    roundAway n neg dir sig = true ↔ Away dir (neg = true) (sig / 2 ^ n) (sig % 2 ^ n) (2 ^ n) := by
  unfold roundAway Away
  cases dir <;> simp only [Bool.false_eq_true, Bool.not_eq_true', Bool.not_eq_true]
  have e : 2 ^ n = 2 * 2 ^ (n - 1) := by rw [← Nat.pow_succ']; congr 1; omega
  have hp := two_pow_pos (n - 1)
  have hsplit : sig % 2 ^ n = sig % 2 ^ (n - 1) + 2 ^ (n - 1) * (sig / 2 ^ (n - 1) % 2) := by
    have : 2 ^ n = 2 ^ (n - 1) * 2 := by omega
    rw [this, Nat.mod_mul]
  have hmask : setBits 0 n ^^^ 1 <<< (n - 1) = setBits 0 (n - 1) := by
    apply Nat.eq_of_testBit_eq
    intro i
    simp only [setBits, Nat.shiftLeft_zero, Nat.one_shiftLeft, Nat.testBit_xor, Nat.testBit_two_pow_sub_one, Nat.testBit_two_pow]
    by_cases h1 : i < n - 1
    · have h2 : i < n := by omega
      have h3 : ¬ n - 1 = i := by omega
      simp [h1, h2, h3]
    · by_cases h2 : n - 1 = i
      · have h3 : i < n := by omega
        simp [h1, h2, h3]
      · have h3 : ¬ i < n := by omega
        simp [h1, h2, h3]
  have hlow : sig % 2 ^ n % 2 ^ (n - 1) = sig % 2 ^ (n - 1) :=
    Nat.mod_mod_of_dvd _ (Nat.pow_dvd_pow 2 (by omega))
  rw [bit_and, hmask, and_mask, and_mask, and_bit, hlow]
  have hlt := Nat.mod_lt sig hp
  have hpn := two_pow_pos n
  have hbit : sig / 2 ^ (n - 1) % 2 = 0 ∨ sig / 2 ^ (n - 1) % 2 = 1 := by omega
  rw [hsplit]
  rcases hbit with h | h
  · rw [h]; simp; omega
  · rw [h]
    simp only [Nat.one_mul, Nat.mul_one]
    rw [if_neg (by omega)]
    by_cases h0 : sig % 2 ^ (n - 1) = 0
    · rw [if_neg (by omega)]
      have : sig / 2 ^ n % 2 = 0 ∨ sig / 2 ^ n % 2 = 1 := by omega
      rcases this with h1 | h1 <;> simp [h1] <;> omega
    · rw [if_pos h0]
      simp; omega

section
variable {F G : Fmt} (hF : F.Shape) (hG : G.Shape) {s x m : Nat} (hs : s < 2) (hx : x < 2 ^ F.e) (hm : m < 2 ^ F.f)
  {E : Int} {M : Nat} (hN : Normal F (F.enc s x m) E M) (dir : Dir)
include hF hG hs hx hm hN

theorem roundedSig_widen (h : F.f ≤ G.f) :
    F.roundedSig G dir (F.enc s x m) = some (M * 2 ^ (G.f - F.f), false, .success) := by
  unfold Fmt.roundedSig
  have h1 := hN.lt; have hsum := hG.sum; have hfits := hG.fits
  have h2 : M * 2 ^ (G.f - F.f) < 2 ^ G.W := by
    have e : 2 ^ F.f * 2 ^ (G.f - F.f) = 2 ^ G.f := by rw [← Nat.pow_add]; congr 1; omega
    have h3 : M * 2 ^ (G.f - F.f) < 2 ^ G.f := by rw [← e]; exact Nat.mul_lt_mul_of_pos_right h1 (two_pow_pos _)
    exact Nat.lt_of_lt_of_le h3 (Nat.pow_le_pow_right (by decide) (by omega))
  have h3 : M < 2 ^ G.W := Nat.lt_of_lt_of_le h1 (Nat.pow_le_pow_right (by decide) (by omega))
  simp only [hN.sig, Option.bind_eq_bind, Option.bind_some, if_pos h, u, Nat.mod_eq_of_lt h3, Nat.shiftLeft_eq,
    Nat.mod_eq_of_lt h2]
  rfl

theorem trunc_lt {n : Nat} (hn : F.f = G.f + n) : M / 2 ^ n < 2 ^ G.f := by
  rw [Nat.div_lt_iff_lt_mul (two_pow_pos _), ← Nat.pow_add, ← hn]; exact hN.lt

theorem roundedSig_exact {n : Nat} (hn : F.f = G.f + n) (h0 : 0 < n) (hr : M % 2 ^ n = 0) :
    F.roundedSig G dir (F.enc s x m) = some (M / 2 ^ n, false, .success) := by
  unfold Fmt.roundedSig
  have h1 := trunc_lt hF hG hs hx hm hN hn; have hsum := hG.sum; have hfits := hG.fits
  have h3 : M / 2 ^ n < 2 ^ G.W := Nat.lt_of_lt_of_le h1 (Nat.pow_le_pow_right (by decide) (by omega))
  have e : F.f - G.f = n := by omega
  simp only [hN.sig, Option.bind_eq_bind, Option.bind_some, if_neg (show ¬ F.f ≤ G.f by omega), e, and_mask, if_pos hr, u,
    Nat.shiftRight_eq_div_pow, Nat.mod_eq_of_lt h3]
  rfl

theorem roundedSig_trunc {n : Nat} (hn : F.f = G.f + n) (h0 : 0 < n) (hr : M % 2 ^ n ≠ 0)
    (ha : ¬ Away dir (s = 1) (M / 2 ^ n) (M % 2 ^ n) (2 ^ n)) :
    F.roundedSig G dir (F.enc s x m) = some (M / 2 ^ n, false, .lostPrecision) := by
  unfold Fmt.roundedSig
  have h1 := trunc_lt hF hG hs hx hm hN hn; have hsum := hG.sum; have hfits := hG.fits
  have h3 : M / 2 ^ n < 2 ^ G.W := Nat.lt_of_lt_of_le h1 (Nat.pow_le_pow_right (by decide) (by omega))
  have e : F.f - G.f = n := by omega
  have hra : ¬ roundAway n (F.isNegative (F.enc s x m)) dir M = true := by
    rw [roundAway_spec h0, hF.isNegative_enc hs hx hm]; simpa using ha
  simp only [hN.sig, Option.bind_eq_bind, Option.bind_some, if_neg (show ¬ F.f ≤ G.f by omega), e, and_mask, if_neg hr, if_neg hra, u,
    Nat.shiftRight_eq_div_pow, Nat.mod_eq_of_lt h3]
  rfl

theorem inc_u {n : Nat} (hn : F.f = G.f + n) : u F.W (M + u F.W (1 <<< n)) = M + 2 ^ n ∧ M + 2 ^ n < 2 * 2 ^ F.f := by
  have hsum := hF.sum; have hfits := hF.fits; have he := hF.e_pos; have hg := hG.f_pos; have hl := hN.lt
  have h1 : 2 ^ n ≤ 2 ^ F.f := Nat.pow_le_pow_right (by decide) (by omega)
  have h2 : 2 * 2 ^ F.f ≤ 2 ^ F.W := by rw [← Nat.pow_succ']; exact Nat.pow_le_pow_right (by decide) (by omega)
  refine ⟨?_, by omega⟩
  rw [u, u, Nat.one_shiftLeft, Nat.mod_eq_of_lt (a := 2 ^ n) (by omega), Nat.mod_eq_of_lt (by omega)]

theorem roundedSig_away {n : Nat} (hn : F.f = G.f + n) (h0 : 0 < n) (hr : M % 2 ^ n ≠ 0)
    (ha : Away dir (s = 1) (M / 2 ^ n) (M % 2 ^ n) (2 ^ n)) (hc : M / 2 ^ n + 1 < 2 ^ G.f) :
    F.roundedSig G dir (F.enc s x m) = some (M / 2 ^ n + 1, false, .lostPrecision) := by
  unfold Fmt.roundedSig
  have hsum := hG.sum; have hfits := hG.fits
  have h3 : M / 2 ^ n + 1 < 2 ^ G.W := Nat.lt_of_lt_of_le hc (Nat.pow_le_pow_right (by decide) (by omega))
  have e : F.f - G.f = n := by omega
  have hra : roundAway n (F.isNegative (F.enc s x m)) dir M = true := by
    rw [roundAway_spec h0, hF.isNegative_enc hs hx hm]; simpa using ha
  obtain ⟨hu, _⟩ := inc_u hF hG hs hx hm hN hn
  have hlt : M + 2 ^ n < 2 ^ F.f := by
    rw [hn, Nat.pow_add]
    have h4 := (Nat.div_lt_iff_lt_mul (x := M + 2 ^ n) (y := 2 ^ G.f) (two_pow_pos n)).1
      (by rw [Nat.add_div_right _ (two_pow_pos n)]; exact hc)
    exact h4
  have hinc : F.incrementSig M (u F.W (1 <<< n)) = (M + 2 ^ n, false) := by
    unfold Fmt.incrementSig
    dsimp only
    rw [hu, hF.firstExpBit, and_pow, Nat.div_eq_of_lt hlt]
    simp
  simp only [hN.sig, Option.bind_eq_bind, Option.bind_some, if_neg (show ¬ F.f ≤ G.f by omega), e, and_mask, if_neg hr, hinc,
    if_pos hra]
  rw [Nat.shiftRight_eq_div_pow, Nat.add_div_right _ (two_pow_pos n), u, Nat.mod_eq_of_lt h3]
  rfl

theorem roundedSig_carry {n : Nat} (hn : F.f = G.f + n) (h0 : 0 < n) (hr : M % 2 ^ n ≠ 0)
    (ha : Away dir (s = 1) (M / 2 ^ n) (M % 2 ^ n) (2 ^ n)) (hc : ¬ M / 2 ^ n + 1 < 2 ^ G.f) :
    F.roundedSig G dir (F.enc s x m) = some (0, true, .lostPrecision) := by
  unfold Fmt.roundedSig
  have h1 := trunc_lt hF hG hs hx hm hN hn
  have e : F.f - G.f = n := by omega
  have hra : roundAway n (F.isNegative (F.enc s x m)) dir M = true := by
    rw [roundAway_spec h0, hF.isNegative_enc hs hx hm]; simpa using ha
  obtain ⟨hu, hlt2⟩ := inc_u hF hG hs hx hm hN hn
  have hM : M + 2 ^ n = 2 ^ F.f + M % 2 ^ n := by
    have hd := Nat.div_add_mod M (2 ^ n)
    have e2 : M / 2 ^ n = 2 ^ G.f - 1 := Nat.le_antisymm (Nat.le_sub_one_of_lt h1) (Nat.sub_le_of_le_add (Nat.not_lt.1 hc))
    have e3 : 2 ^ n * (2 ^ G.f - 1) + 2 ^ n = 2 ^ F.f := by
      rw [hn, Nat.add_comm G.f, Nat.pow_add, Nat.mul_sub, Nat.mul_one]
      have := Nat.le_mul_of_pos_right (2 ^ n) (two_pow_pos G.f)
      omega
    rw [e2] at hd
    omega
  have hml := Nat.mod_lt M (two_pow_pos n)
  have hle : 2 ^ n ≤ 2 ^ F.f := Nat.pow_le_pow_right (by decide) (by omega)
  have hinc : ∃ q, q < 2 ^ n ∧ F.incrementSig M (u F.W (1 <<< n)) = (q, true) := by
    unfold Fmt.incrementSig
    dsimp only
    rw [hu, hF.firstExpBit, and_pow, hM]
    have e4 : (2 ^ F.f + M % 2 ^ n) / 2 ^ F.f = 1 := by
      apply Nat.div_eq_of_lt_le <;> omega
    rw [e4]
    have ne : (1 % 2 * 2 ^ F.f != 0) = true := by simp
    rw [if_pos ne]
    refine ⟨_, ?_, rfl⟩
    have e5 : 2 ^ F.f + M % 2 ^ n = 2 ^ F.f ||| M % 2 ^ n := by
      have := or_shl (a := 1) (b := M % 2 ^ n) (i := F.f) (by omega)
      rw [Nat.one_mul] at this; exact this.symm
    rw [e5, Nat.and_or_distrib_right, and_compl_bit hF, Nat.zero_or, Nat.shiftRight_eq_div_pow]
    exact Nat.lt_of_le_of_lt (Nat.le_trans (Nat.div_le_self _ _) Nat.and_le_left) hml
  obtain ⟨q, hq, hinc⟩ := hinc
  simp only [hN.sig, Option.bind_eq_bind, Option.bind_some, if_neg (show ¬ F.f ≤ G.f by omega), e, and_mask, if_neg hr, hinc,
    if_pos hra]
  rw [Nat.shiftRight_eq_div_pow, Nat.div_eq_of_lt hq]
  rfl

end

end Verif.HexFloat
