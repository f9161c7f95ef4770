import Verif.HexFloat.Cast

/-! `castTo` on numbers -/
set_option linter.unusedSimpArgs false
set_option linter.unusedVariables false
namespace Verif.HexFloat

theorem Away.scale {dir : Dir} {p : Prop} {t t' r d k : Nat} (hk : 0 < k) (ht : t' % 2 = t % 2) :
    Away dir p t' (r * k) (d * k) ↔ Away dir p t r d := by
  unfold Away
  cases dir <;> simp only [ht]
  rw [← Nat.mul_assoc, Nat.mul_lt_mul_right hk, Nat.mul_left_inj (Nat.pos_iff_ne_zero.1 hk)]

/-- What rounding the fraction gives. -/
structure RoundedTo (F G : Fmt) (dir : Dir) (s b M sig : Nat) (carry : Bool) (r : CastResult) : Prop where
  eq : F.roundedSig G dir b = some (sig, carry, r)
  lt : sig < 2 ^ G.f
  res : r = if (2 ^ F.f + M) * 2 ^ G.f % 2 ^ F.f = 0 then .success else .lostPrecision
  cases :
    (((2 ^ F.f + M) * 2 ^ G.f % 2 ^ F.f = 0 ∨
        ¬ Away dir (s = 1) ((2 ^ F.f + M) * 2 ^ G.f / 2 ^ F.f) ((2 ^ F.f + M) * 2 ^ G.f % 2 ^ F.f) (2 ^ F.f)) ∧
      carry = false ∧ 2 ^ G.f + sig = (2 ^ F.f + M) * 2 ^ G.f / 2 ^ F.f) ∨
    ((2 ^ F.f + M) * 2 ^ G.f % 2 ^ F.f ≠ 0 ∧
      Away dir (s = 1) ((2 ^ F.f + M) * 2 ^ G.f / 2 ^ F.f) ((2 ^ F.f + M) * 2 ^ G.f % 2 ^ F.f) (2 ^ F.f) ∧
      (carry = false ∧ 2 ^ G.f + sig = (2 ^ F.f + M) * 2 ^ G.f / 2 ^ F.f + 1 ∨
       carry = true ∧ sig = 0 ∧ (2 ^ F.f + M) * 2 ^ G.f / 2 ^ F.f + 1 = 2 * 2 ^ G.f))

section
variable {F G : Fmt} (hF : F.Shape) (hG : G.Shape) {s x m : Nat} (hs : s < 2) (hx : x < 2 ^ F.e) (hm : m < 2 ^ F.f)
  {E : Int} {M : Nat} (hN : Normal F (F.enc s x m) E M) (dir : Dir)
include hF hG hs hx hm hN

theorem exists_rounded : ∃ sig carry r, RoundedTo F G dir s (F.enc s x m) M sig carry r := by
  have hl := hN.lt
  by_cases h : F.f ≤ G.f
  · have e : (2 ^ F.f + M) * 2 ^ G.f = (2 ^ F.f + M) * 2 ^ (G.f - F.f) * 2 ^ F.f := by
      rw [Nat.mul_assoc, ← Nat.pow_add]; congr 2; omega
    have e0 : (2 ^ F.f + M) * 2 ^ G.f % 2 ^ F.f = 0 := by rw [e, Nat.mul_mod_left]
    have e1 : (2 ^ F.f + M) * 2 ^ G.f / 2 ^ F.f = 2 ^ G.f + M * 2 ^ (G.f - F.f) := by
      rw [e, Nat.mul_div_cancel _ (two_pow_pos _), Nat.add_mul, ← Nat.pow_add]; congr 2; omega
    refine ⟨_, _, _, roundedSig_widen hF hG hs hx hm hN dir h, ?_, by rw [if_pos e0], Or.inl ⟨Or.inl e0, rfl, e1.symm⟩⟩
    have e : 2 ^ F.f * 2 ^ (G.f - F.f) = 2 ^ G.f := by rw [← Nat.pow_add]; congr 1; omega
    rw [← e]; exact Nat.mul_lt_mul_of_pos_right hl (two_pow_pos _)
  · obtain ⟨n, hn⟩ : ∃ n, F.f = G.f + n := ⟨F.f - G.f, by omega⟩
    have h0 : 0 < n := by omega
    have ef : 2 ^ F.f = 2 ^ n * 2 ^ G.f := by rw [hn, Nat.add_comm, Nat.pow_add]
    have hp := two_pow_pos G.f
    have hpn := two_pow_pos n
    have er : (2 ^ F.f + M) * 2 ^ G.f % 2 ^ F.f = M % 2 ^ n * 2 ^ G.f := by
      have e : (2 ^ F.f + M) * 2 ^ G.f % 2 ^ F.f = (2 ^ F.f + M) % 2 ^ n * 2 ^ G.f := by
        conv => lhs; rhs; rw [ef]
        exact Nat.mul_mod_mul_right ..
      rw [e, ef, Nat.mul_comm (2 ^ n), Nat.add_comm, Nat.add_mul_mod_self_right]
    have et : (2 ^ F.f + M) * 2 ^ G.f / 2 ^ F.f = 2 ^ G.f + M / 2 ^ n := by
      have e : (2 ^ F.f + M) * 2 ^ G.f / 2 ^ F.f = (2 ^ F.f + M) / 2 ^ n := by
        conv => lhs; rhs; rw [ef]
        exact Nat.mul_div_mul_right _ _ hp
      rw [e, ef, Nat.mul_comm (2 ^ n), Nat.add_comm, Nat.add_mul_div_right _ _ hpn, Nat.add_comm]
    have hpar : (2 ^ G.f + M / 2 ^ n) % 2 = M / 2 ^ n % 2 := by
      have : 2 ^ G.f = 2 * 2 ^ (G.f - 1) := by
        have := hG.f_pos
        rw [← Nat.pow_succ']; congr 1; omega
      omega
    have hz : M % 2 ^ n * 2 ^ G.f = 0 ↔ M % 2 ^ n = 0 := by
      rw [Nat.mul_eq_zero]; constructor
      · rintro (h | h)
        · exact h
        · omega
      · exact Or.inl
    have ht := trunc_lt hF hG hs hx hm hN hn
    have haw : Away dir (s = 1) ((2 ^ F.f + M) * 2 ^ G.f / 2 ^ F.f) ((2 ^ F.f + M) * 2 ^ G.f % 2 ^ F.f) (2 ^ F.f) ↔
        Away dir (s = 1) (M / 2 ^ n) (M % 2 ^ n) (2 ^ n) := by
      rw [er, et]
      conv => lhs; rw [ef]
      exact Away.scale hp hpar
    by_cases hr : M % 2 ^ n = 0
    · have e0 : (2 ^ F.f + M) * 2 ^ G.f % 2 ^ F.f = 0 := by rw [er, hr, Nat.zero_mul]
      exact ⟨_, _, _, roundedSig_exact hF hG hs hx hm hN dir hn h0 hr, ht, by rw [if_pos e0],
        Or.inl ⟨Or.inl e0, rfl, et.symm⟩⟩
    · have e0 : (2 ^ F.f + M) * 2 ^ G.f % 2 ^ F.f ≠ 0 := by rw [er]; exact fun h => hr (hz.1 h)
      by_cases ha : Away dir (s = 1) (M / 2 ^ n) (M % 2 ^ n) (2 ^ n)
      · by_cases hc : M / 2 ^ n + 1 < 2 ^ G.f
        · exact ⟨_, _, _, roundedSig_away hF hG hs hx hm hN dir hn h0 hr ha hc, hc, by rw [if_neg e0],
            Or.inr ⟨e0, haw.2 ha, Or.inl ⟨rfl, by rw [et]; rfl⟩⟩⟩
        · refine ⟨_, _, _, roundedSig_carry hF hG hs hx hm hN dir hn h0 hr ha hc, hp, by rw [if_neg e0],
            Or.inr ⟨e0, haw.2 ha, Or.inr ⟨rfl, rfl, ?_⟩⟩⟩
          have e9 : M / 2 ^ n + 1 = 2 ^ G.f := Nat.le_antisymm (Nat.succ_le_of_lt ht) (Nat.not_lt.1 hc)
          rw [et, Nat.add_assoc, e9, Nat.two_mul]
      · exact ⟨_, _, _, roundedSig_trunc hF hG hs hx hm hN dir hn h0 hr ha, ht, by rw [if_neg e0],
          Or.inl ⟨Or.inr (fun h => ha (haw.1 h)), rfl, et.symm⟩⟩

theorem castTo_split (h0 : ¬ (x = 0 ∧ m = 0)) (hnum : F.Num (F.enc s x m)) (hc : Compatible F G) {sig carry r}
    (hr : RoundedTo F G dir s (F.enc s x m) M sig carry r) :
    castTo F G dir (F.enc s x m) =
      if E + (if carry then 1 else 0) > G.bias then
        some (if G.hasInf then (if decide (s = 1) then G.signMask else 0) ||| G.expMask
          else (if decide (s = 1) then G.signMask else 0) ||| G.maxBits, r)
      else some ((G.setFrom (decide (s = 1)) (wrap G.W E) sig
          (if s = 1 then decide (dir = .toNegInf) else decide (dir = .toPosInf))).1,
        (G.setFrom (decide (s = 1)) (wrap G.W E) sig
          (if s = 1 then decide (dir = .toNegInf) else decide (dir = .toPosInf))).2.max r) := by
  have hw : wrap F.W G.bias = G.bias := by
    have h1 : ((G.bias : Nat) : Int) < ((2 ^ (F.W - 1) : Nat) : Int) := by exact_mod_cast hc.2
    have hsum := hF.sum; have hfits := hF.fits
    push_cast at h1
    apply wrap_eq (by omega)
    · have : (0 : Int) ≤ 2 ^ (F.W - 1) := by have := two_pow_pos (F.W - 1); exact_mod_cast Nat.zero_le _
      omega
    · exact h1
  have hnan : F.isNan (F.enc s x m) = false := by
    rw [Bool.eq_false_iff]; exact fun h => hnum.2.1 ((isNan_enc hF hs hx hm).1 h)
  have hinf : F.isInf (F.enc s x m) = false := by
    rw [Bool.eq_false_iff]; exact fun h => hnum.2.2 ((isInf_enc hF hs hx hm).1 h)
  have hz : ¬ ((F.hasZero && F.unsignedBits (F.enc s x m) == 0) = true) := by
    rw [Bool.and_eq_true, beq_iff_eq, Fmt.unsignedBits, hF.enc_unsigned hs hx hm]
    intro h
    have hp := two_pow_pos F.f
    have h1 : x * 2 ^ F.f = 0 := by have := h.2; omega
    rcases Nat.mul_eq_zero.1 h1 with h2 | h2
    · exact h0 ⟨h2, by have := h.2; omega⟩
    · omega
  unfold castTo
  simp only [hr.eq, hN.exp, hw, hnan, hinf, if_neg hz, hF.isNegative_enc hs hx hm, Option.bind_eq_bind, Option.bind_some,
    Bool.not_false, Bool.true_and, Bool.or_false, decide_eq_true_eq, Bool.false_eq_true, if_false]
  by_cases hgt : E + (if carry = true then 1 else 0) > (G.bias : Int)
  · rw [if_pos hgt, if_pos hgt]; rfl
  · rw [if_neg hgt, if_neg hgt]; rfl

end

end Verif.HexFloat
