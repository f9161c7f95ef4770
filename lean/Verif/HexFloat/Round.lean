import Verif.HexFloat.Cast2

/-! From whole numbers to rational numbers -/
set_option linter.unusedSimpArgs false
set_option linter.unusedVariables false
namespace Verif.HexFloat

/-- A whole number as a fraction of `n`. -/
def q (n : Nat) (z : Int) : Rat := (z : Rat) / (n : Rat)

/-- With a sign. -/
def sg (s : Prop) [Decidable s] (a : Nat) : Int := if s then -(a : Int) else a

theorem rat_pos {n : Nat} (hn : 0 < n) : (0 : Rat) < (n : Rat) := by exact_mod_cast hn

section
variable {n : Nat} (hn : 0 < n)
include hn

theorem q_lt {a b : Int} : q n a < q n b ↔ a < b := by
  unfold q
  rw [Rat.div_lt_iff (rat_pos hn), Rat.div_mul_cancel (by have := rat_pos hn; grind), Rat.intCast_lt_intCast]

theorem q_le {a b : Int} : q n a ≤ q n b ↔ a ≤ b := by
  rw [← Rat.not_lt, q_lt hn]; omega

theorem q_inj {a b : Int} : q n a = q n b ↔ a = b := by
  constructor
  · intro h
    have h1 := (q_le hn (a := a) (b := b)).1 (by rw [h]; exact Rat.le_refl)
    have h2 := (q_le hn (a := b) (b := a)).1 (by rw [h]; exact Rat.le_refl)
    omega
  · rintro rfl; rfl

omit hn in
theorem q_zero : q n 0 = 0 := by unfold q; rw [Rat.div_def]; exact Rat.zero_mul _

omit hn in
theorem q_sub {a b : Int} : q n a - q n b = q n (a - b) := by
  unfold q; push_cast; grind

omit hn in
theorem q_neg {a : Int} : -(q n a) = q n (-a) := by
  unfold q; push_cast; grind

theorem q_abs {a : Int} : (q n a).abs = q n (a.natAbs : Int) := by
  by_cases h : 0 ≤ a
  · rw [Rat.abs_of_nonneg (by rw [← q_zero (n := n), q_le hn]; exact h)]
    congr 1; omega
  · rw [Rat.abs_of_nonpos (by rw [← q_zero (n := n), q_le hn]; omega), q_neg]
    congr 1; omega

theorem q_mul_nonneg {a b : Int} (h : 0 ≤ a ∧ 0 ≤ b ∨ a ≤ 0 ∧ b ≤ 0) : 0 ≤ q n a * q n b := by
  rcases h with ⟨h1, h2⟩ | ⟨h1, h2⟩
  · apply Rat.mul_nonneg <;> rw [← q_zero (n := n), q_le hn] <;> assumption
  · have e : q n a * q n b = q n (-a) * q n (-b) := by rw [← q_neg, ← q_neg]; grind
    rw [e]
    apply Rat.mul_nonneg <;> rw [← q_zero (n := n), q_le hn] <;> omega

end

theorem val_q (F : Fmt) (b Q : Nat) (hQ : 0 < Q) :
    F.val b = q (2 ^ (F.bias + F.f) * Q) (sg (F.neg b) (F.mag b * Q)) := by
  have h1 := rat_pos hQ
  have h2 := rat_pos (two_pow_pos (F.bias + F.f))
  unfold Fmt.val q sg
  have key : ∀ (P A Q σ : Rat), 0 < P → 0 < Q → σ * A / P = σ * A * Q / (P * Q) := by
    intro P A Q σ h1 h2
    have h3 : P ≠ 0 := by grind
    have h4 : Q ≠ 0 := by grind
    grind
  push_cast at *
  rw [key _ _ _ _ h2 h1]
  split <;> push_cast <;> grind

theorem val_q' (F : Fmt) (b P : Nat) (hP : 0 < P) :
    F.val b = q (P * 2 ^ (F.bias + F.f)) (sg (F.neg b) (F.mag b * P)) := by
  rw [val_q F b P hP, Nat.mul_comm]

/-- Magnitudes lie on a grid. -/
theorem gap {f t k g j : Nat} (hk : 1 ≤ k) (ht : k = 1 ∨ 2 ^ f ≤ t) (hj : 1 ≤ j) (hg : g < 2 * 2 ^ f) :
    g * 2 ^ j ≤ t * 2 ^ k ∨ (t + 1) * 2 ^ k ≤ g * 2 ^ j := by
  by_cases h : k ≤ j
  · obtain ⟨d, rfl⟩ : ∃ d, j = k + d := ⟨j - k, by omega⟩
    have e : g * 2 ^ (k + d) = g * 2 ^ d * 2 ^ k := by rw [Nat.pow_add, Nat.mul_assoc, Nat.mul_comm (2 ^ k)]
    rw [e]
    rcases Nat.lt_or_ge t (g * 2 ^ d) with h1 | h1
    · exact Or.inr (Nat.mul_le_mul_right _ h1)
    · exact Or.inl (Nat.mul_le_mul_right _ h1)
  · left
    have ht' : 2 ^ f ≤ t := by omega
    have h1 : 2 * 2 ^ j ≤ 2 ^ k := by rw [← Nat.pow_succ']; exact Nat.pow_le_pow_right (by decide) (by omega)
    calc g * 2 ^ j ≤ 2 * 2 ^ f * 2 ^ j := Nat.mul_le_mul_right _ (by omega)
      _ = 2 ^ f * (2 * 2 ^ j) := by rw [Nat.mul_comm 2, Nat.mul_assoc]
      _ ≤ t * 2 ^ k := Nat.mul_le_mul ht' h1

theorem mag_gap {G : Fmt} {t k d : Nat} (hk : 1 ≤ k) (ht : k = 1 ∨ 2 ^ G.f ≤ t) :
    G.mag d ≤ t * 2 ^ k ∨ (t + 1) * 2 ^ k ≤ G.mag d := by
  unfold Fmt.mag
  apply gap hk ht (by omega)
  have : G.fracField d < 2 ^ G.f := Nat.mod_lt _ (two_pow_pos _)
  split <;> omega

/-- A neighbour chosen as `Away` says is what rounding asks for. -/
theorem rounds_of_bracket {F G : Fmt} {dir : Dir} {b c s T k X U : Nat} (hnum : G.Num c)
    (hsb : F.neg b ↔ s = 1) (hsc : G.neg c ↔ s = 1) (hX : F.mag b * 2 ^ (G.bias + G.f) = X)
    (hU : 2 ^ k * 2 ^ (F.bias + F.f) = U) (hpos : 0 < X) (hk : 1 ≤ k) (ht : k = 1 ∨ 2 ^ G.f ≤ T) (hlo : T * U ≤ X)
    (hhi : X < T * U + U)
    (hc : (G.mag c * 2 ^ (F.bias + F.f) = T * U ∧ (X = T * U ∨ ¬ Away dir (s = 1) T (X - T * U) U) ∧ c % 2 = T % 2) ∨
      (G.mag c * 2 ^ (F.bias + F.f) = T * U + U ∧ X ≠ T * U ∧ Away dir (s = 1) T (X - T * U) U ∧ c % 2 = (T + 1) % 2)) :
    Rounds G dir (F.val b) c := by
  have hP := two_pow_pos (F.bias + F.f); have hQ := two_pow_pos (G.bias + G.f)
  have hPQ := Nat.mul_pos hP hQ
  refine ⟨hnum, ?_⟩
  rw [val_q F b _ hQ, hX]
  have hv : ∀ d, G.val d = q (2 ^ (F.bias + F.f) * 2 ^ (G.bias + G.f)) (sg (G.neg d) (G.mag d * 2 ^ (F.bias + F.f))) :=
    fun d => val_q' G d _ hP
  have hg : ∀ d, G.mag d * 2 ^ (F.bias + F.f) ≤ T * U ∨ T * U + U ≤ G.mag d * 2 ^ (F.bias + F.f) := by
    intro d
    rcases mag_gap (G := G) (d := d) hk ht with h | h
    · left; rw [← hU, ← Nat.mul_assoc]; exact Nat.mul_le_mul_right _ h
    · right
      have e : T * U + U = (T + 1) * 2 ^ k * 2 ^ (F.bias + F.f) := by
        rw [← hU, ← Nat.mul_assoc, Nat.add_mul, Nat.add_mul, Nat.one_mul]
      rw [e]; exact Nat.mul_le_mul_right _ h
  simp only [hv]
  generalize hL : T * U = L at *
  have hUp : 0 < U := by rw [← hU]; exact Nat.mul_pos (two_pow_pos _) hP
  have hsc' : ∀ a, sg (G.neg c) a = sg (s = 1) a := by intro a; unfold sg; simp only [hsc]
  have hsb' : ∀ a, sg (F.neg b) a = sg (s = 1) a := by intro a; unfold sg; simp only [hsb]
  rw [hsc', hsb']
  generalize hC : G.mag c * 2 ^ (F.bias + F.f) = C at *
  unfold Away at hc
  cases dir <;> simp only [q_abs hPQ, q_le hPQ, q_sub, q_inj hPQ, ne_eq, not_false_eq_true, or_true, true_and, false_and,
    and_false, or_false] at hc ⊢
  · refine ⟨?_, q_mul_nonneg hPQ ?_, ?_⟩
    · unfold sg; split <;> omega
    · unfold sg; split <;> omega
    · intro d _ hd
      have h := hg d
      generalize G.mag d * 2 ^ (F.bias + F.f) = D at *
      revert hd; unfold sg; split <;> split <;> omega
  · intro d _
    have h := hg d
    generalize G.mag d * 2 ^ (F.bias + F.f) = D at *
    by_cases hs : s = 1 <;> by_cases hn : G.neg d <;> simp only [sg, hs, hn, if_true, if_false] at hc ⊢ <;>
      exact ⟨by omega, fun h1 h2 => by omega⟩
  · by_cases hs : s = 1
    · have hs' := eq_true hs
      simp only [sg, hs', not_true, not_false_eq_true, if_true, or_true, true_and, false_and, and_false, or_false] at hc ⊢
      refine ⟨by omega, fun d _ => ?_⟩
      have h := hg d
      generalize G.mag d * 2 ^ (F.bias + F.f) = D at *
      split <;> omega
    · have hs' := eq_false hs
      simp only [sg, hs', not_true, not_false_eq_true, if_false, or_false, true_and] at hc ⊢
      refine ⟨by omega, fun d _ => ?_⟩
      have h := hg d
      generalize G.mag d * 2 ^ (F.bias + F.f) = D at *
      split <;> omega
  · by_cases hs : s = 1
    · have hs' := eq_true hs
      simp only [sg, hs', not_true, not_false_eq_true, if_true, or_false, true_and] at hc ⊢
      refine ⟨by omega, fun d _ => ?_⟩
      have h := hg d
      generalize G.mag d * 2 ^ (F.bias + F.f) = D at *
      split <;> omega
    · have hs' := eq_false hs
      simp only [sg, hs', not_true, not_false_eq_true, if_false, or_true, true_and, false_and, and_false, or_false] at hc ⊢
      refine ⟨by omega, fun d _ => ?_⟩
      have h := hg d
      generalize G.mag d * 2 ^ (F.bias + F.f) = D at *
      split <;> omega

end Verif.HexFloat
