import Verif.Strength.Model
set_option linter.unusedSimpArgs false
set_option linter.unusedVariables false
namespace Verif.Strength
open Verif.StringLit (Word)
open Verif.NextId (Ctx takeNextId)

theorem isPowerOf2_iff (v : Word) : isPowerOf2 v = true ↔ ∃ k, k < 32 ∧ v = BitVec.ofNat 32 (2 ^ k) := by
  unfold isPowerOf2
  by_cases h0 : v = 0
  · subst h0
    simp only [if_true, Bool.false_eq_true, false_iff]
    rintro ⟨k, hk, he⟩
    have := congrArg BitVec.toNat he
    simp only [BitVec.toNat_ofNat] at this
    rw [Nat.mod_eq_of_lt (Nat.pow_lt_pow_right (by decide) hk)] at this
    have hp : 0 < 2 ^ k := Nat.two_pow_pos k
    simp at this
    omega
  · simp only [h0, if_false, decide_eq_true_eq]
    have hn : v.toNat ≠ 0 := fun h => h0 (BitVec.eq_of_toNat_eq (by simpa using h))
    have h1 : ((v - 1) &&& v).toNat = v.toNat &&& (v.toNat - 1) := by
      rw [BitVec.toNat_and, Nat.and_comm]
      congr 1
      rw [BitVec.toNat_sub_of_le (by rw [BitVec.le_def]; show 1 ≤ _; omega)]
      rfl
    have h2 : (v - 1) &&& v = 0 ↔ v.toNat &&& (v.toNat - 1) = 0 := by
      rw [← h1]
      constructor
      · intro h; rw [h]; rfl
      · intro h; exact BitVec.eq_of_toNat_eq (by rw [h]; rfl)
    rw [h2, Nat.and_sub_one_eq_zero_iff_isPowerOfTwo hn]
    constructor
    · rintro ⟨k, hk⟩
      have hlt := v.isLt
      have : k < 32 := by
        apply Decidable.byContradiction
        intro hge
        have : 2 ^ 32 ≤ 2 ^ k := Nat.pow_le_pow_right (by decide) (by omega)
        omega
      exact ⟨k, this, BitVec.eq_of_toNat_eq (by
        rw [BitVec.toNat_ofNat, Nat.mod_eq_of_lt (Nat.pow_lt_pow_right (by decide) this)]; exact hk)⟩
    · rintro ⟨k, hk, rfl⟩
      refine ⟨k, ?_⟩
      rw [BitVec.toNat_ofNat, Nat.mod_eq_of_lt (Nat.pow_lt_pow_right (by decide) hk)]

theorem ctz_pow2 (k : Nat) (sh : Word) (hk : k < 32) :
    countTrailingZeros (BitVec.ofNat 32 (2 ^ k)) sh = some (sh + BitVec.ofNat 32 k) := by
  induction k generalizing sh with
  | zero => rw [countTrailingZeros]; simp
  | succ k ih =>
    have e1 : BitVec.ofNat 32 (2 ^ (k + 1)) &&& 1 = 0 := by
      apply BitVec.eq_of_toNat_eq
      rw [BitVec.toNat_and, BitVec.toNat_ofNat, Nat.mod_eq_of_lt (Nat.pow_lt_pow_right (by decide) hk)]
      show 2 ^ (k + 1) &&& 1 = 0
      rw [Nat.and_one_is_mod, Nat.pow_succ]
      omega
    have e2 : BitVec.ofNat 32 (2 ^ (k + 1)) >>> 1 = BitVec.ofNat 32 (2 ^ k) := by
      apply BitVec.eq_of_toNat_eq
      rw [BitVec.toNat_ushiftRight, BitVec.toNat_ofNat, BitVec.toNat_ofNat,
        Nat.mod_eq_of_lt (Nat.pow_lt_pow_right (by decide) hk),
        Nat.mod_eq_of_lt (Nat.pow_lt_pow_right (by decide) (by omega : k < 32)), Nat.shiftRight_eq_div_pow]
      rw [Nat.pow_succ]
      omega
    rw [countTrailingZeros]
    rw [if_pos e1, e2, ih _ (by omega)]
    congr 1
    apply BitVec.eq_of_toNat_eq
    simp only [BitVec.toNat_add, BitVec.toNat_ofNat]
    have : (1 : Word).toNat = 1 := rfl
    omega

theorem mul_pow2 (x : Word) (k : Nat) (hk : k < 32) : x * BitVec.ofNat 32 (2 ^ k) = x <<< (BitVec.ofNat 32 k).toNat := by
  apply BitVec.eq_of_toNat_eq
  rw [BitVec.toNat_mul, BitVec.toNat_shiftLeft, BitVec.toNat_ofNat, BitVec.toNat_ofNat,
    Nat.mod_eq_of_lt (Nat.pow_lt_pow_right (by decide) hk), Nat.mod_eq_of_lt (by omega : k < 2 ^ 32), Nat.shiftLeft_eq]

/-- Fresh ids. -/
theorem takeNext {c : Ctx} (h : (takeNextId c).1 ≠ 0) :
    (takeNextId c).1 = c.bound ∧ (takeNextId c).2.bound.toNat = c.bound.toNat + 1 := by
  unfold takeNextId Verif.NextId.takeNextIdBound at *
  simp only at h ⊢
  by_cases hb : c.bound ≥ c.maxBound
  · simp [hb] at h
  · simp only [hb, if_false] at h ⊢
    have hlt : c.bound.toNat < c.maxBound.toNat := by
      rw [ge_iff_le, BitVec.le_def] at hb; omega
    have hm := c.maxBound.isLt
    by_cases h0 : c.bound = 0
    · simp [h0] at h
    · simp only [h0, if_false]
      refine ⟨trivial, ?_⟩
      rw [BitVec.toNat_add]
      have : (1 : Word).toNat = 1 := rfl
      omega

theorem takeNext_fail {c : Ctx} (h0 : c.bound ≠ 0) (h : (takeNextId c).1 = 0) :
    (takeNextId (takeNextId c).2).1 = 0 := by
  unfold takeNextId Verif.NextId.takeNextIdBound at *
  simp only at h ⊢
  by_cases hb : c.bound ≥ c.maxBound
  · simp [hb]
  · exfalso
    simp only [hb, if_false, h0] at h

end Verif.Strength
