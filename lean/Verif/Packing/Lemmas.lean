import Verif.Packing.Spec
set_option linter.unusedSimpArgs false
set_option linter.unusedVariables false
namespace Verif.Packing
open Spec

/-- Alignments that occur. -/
def P (a : Nat) : Prop := a = 1 ∨ a = 2 ∨ a = 4 ∨ a = 8 ∨ a = 16 ∨ a = 32

theorem and_mask (x k : Nat) : x &&& (2 ^ k - 1) = x % 2 ^ k := Nat.and_two_pow_sub_one_eq_mod x k

theorem alignPow2_eq {v a : Nat} (ha : P a) (h : roundUp v a < 2 ^ 32) :
    alignPow2 v a = roundUp v a := by
  have key : ∀ k, a = 2 ^ k → alignPow2 v a = w32 (v + a - 1) - w32 (v + a - 1) % a := by
    rintro k rfl
    unfold alignPow2
    rw [and_mask]
  unfold roundUp at *
  unfold w32 at key
  rcases ha with rfl | rfl | rfl | rfl | rfl | rfl
  · rw [key 0 rfl]; omega
  · rw [key 1 rfl]; omega
  · rw [key 2 rfl]; omega
  · rw [key 3 rfl]; omega
  · rw [key 4 rfl]; omega
  · rw [key 5 rfl]; omega

theorem P.max {a b : Nat} (ha : P a) (hb : P b) : P (max a b) := by
  rcases Nat.le_total a b with h | h
  · rw [Nat.max_eq_right h]; exact hb
  · rw [Nat.max_eq_left h]; exact ha

theorem round_max {s a p : Nat} (ha : P a) (hp : P p) :
    roundUp s (max a p) = roundUp (roundUp s p) a := by
  unfold roundUp
  rcases ha with rfl | rfl | rfl | rfl | rfl | rfl <;> rcases hp with rfl | rfl | rfl | rfl | rfl | rfl <;>
    simp only [Nat.reduceLeDiff, Nat.max_eq_left, Nat.max_eq_right, Nat.max_def, if_true, if_false,
      Nat.reduceSub, ↓reduceIte] <;> omega

theorem round_le {s a : Nat} (ha : P a) : s ≤ roundUp s a := by
  unfold roundUp
  rcases ha with rfl | rfl | rfl | rfl | rfl | rfl <;> omega

theorem round_add {o s a : Nat} (ha : P a) (h : o % a = 0) : roundUp (o + s) a = o + roundUp s a := by
  unfold roundUp
  rcases ha with rfl | rfl | rfl | rfl | rfl | rfl <;> omega

theorem round_dvd {s a : Nat} : roundUp s a % a = 0 := by
  unfold roundUp; exact Nat.mul_mod_left _ _

theorem round_16 {a : Nat} (ha : P a) : roundUp a 16 = Nat.max 16 a := by
  rcases ha with rfl | rfl | rfl | rfl | rfl | rfl <;> rfl

theorem atLeast_eq {r : Rules} (hr : r ≠ .hlsl) {a : Nat} (ha : P a) :
    atLeast r a = max (if padded r then 16 else 1) a := by
  have h1 : 1 ≤ a := by rcases ha with rfl | rfl | rfl | rfl | rfl | rfl <;> decide
  cases r with
  | std140 => exact round_16 ha
  | std430 => simp only [atLeast, padded]; simp; omega
  | hlsl => exact absurd rfl hr
  | scalar => simp only [atLeast, padded]; simp; omega

theorem atLeast_P {r : Rules} (hr : r ≠ .hlsl) {a : Nat} (ha : P a) : P (atLeast r a) := by
  rw [atLeast_eq hr ha]
  refine P.max ?_ ha
  split <;> simp [P]

mutual
theorem align_eq {r : Rules} (hr : r ≠ .hlsl) : ∀ t, Good r t → align r t = alignOf r t ∧ P (alignOf r t)
  | .scalar b, h => by
    simp only [Good] at h
    rcases h with rfl | rfl | rfl | rfl <;> simp [align, alignOf, P]
  | .vec b n, h => by
    simp only [Good] at h
    obtain ⟨hb, hn⟩ := h
    rcases hb with rfl | rfl | rfl | rfl <;> rcases hn with rfl | rfl | rfl <;> cases r <;>
      simp [align, alignOf, vecAlign, w32, P]
  | .mat b c k, h => by
    simp only [Good] at h
    obtain ⟨h1, hb, hc, hk⟩ := h
    rcases hb with rfl | ⟨rfl, rfl | rfl⟩ <;> rcases hc with rfl | rfl | rfl <;>
      first
      | (cases r <;> first | exact absurd rfl h1 | exact absurd rfl hr |
          simp [align, alignOf, vecAlign, atLeast, roundUp, padded, w32, P])
      | simp [align, alignOf, vecAlign, atLeast, roundUp, padded, w32, P]
  | .arr e n, h => by
    simp only [Good] at h
    obtain ⟨h1, h2⟩ := align_eq hr e h.1
    refine ⟨?_, ?_⟩
    · simp only [align, alignOf]; rw [atLeast_eq hr h2, h1]
    · simp only [alignOf]; exact atLeast_P hr h2
  | .struct ms, h => by
    simp only [Good] at h
    obtain ⟨h1, h2⟩ := aligns_eq hr ms h
    have h1 := h1 1 (Or.inl rfl)
    have hp : 1 ≤ largest r ms := by rcases h2 with e | e | e | e | e | e <;> omega
    refine ⟨?_, ?_⟩
    · simp only [align, alignOf]; rw [atLeast_eq hr h2, h1]
      split <;> omega
    · simp only [alignOf]; exact atLeast_P hr h2
theorem aligns_eq {r : Rules} (hr : r ≠ .hlsl) : ∀ ts, Goods r ts →
    (∀ a, P a → alignMembers r ts a = max a (largest r ts)) ∧ P (largest r ts)
  | .nil, _ => by
    refine ⟨fun a ha => ?_, Or.inl rfl⟩
    simp only [alignMembers, largest]
    rcases ha with rfl | rfl | rfl | rfl | rfl | rfl <;> rfl
  | .cons t ts, h => by
    simp only [Goods] at h
    obtain ⟨h1, h2⟩ := align_eq hr t h.1
    obtain ⟨h3, h4⟩ := aligns_eq hr ts h.2
    refine ⟨fun a ha => ?_, ?_⟩
    · simp only [alignMembers, largest]
      rw [h1, h3 _ (ha.max h2)]
      omega
    · simp only [largest]; exact h2.max h4
end

/-- The alignment after a member. -/
theorem pad_P {r : Rules} {t : Ty} (h : P (alignOf r t)) : P (padAlign t (alignOf r t)) := by
  unfold padAlign
  split
  · exact h
  · exact Or.inl rfl

mutual
theorem endOf_ge {r : Rules} (hr : r ≠ .hlsl) : ∀ ts e, Goods r ts → e ≤ endOf r ts e
  | .nil, e, _ => by simp [endOf]
  | .cons t ts, e, h => by
    simp only [Goods] at h
    simp only [endOf]
    have := endOf_ge hr ts (roundUp e (alignOf r t) + bytes r t) h.2
    have := round_le (s := e) (align_eq hr t h.1).2
    omega
end

mutual
/-- The size of the code, rounded up, is the size of the rules. -/
theorem size_eq {r : Rules} (hr : r ≠ .hlsl) : ∀ t, Good r t → bytes r t < 2 ^ 32 →
    roundUp (size r t) (padAlign t (alignOf r t)) = bytes r t
  | .scalar b, h, hs => by simp [size, bytes, padAlign, roundUp]
  | .vec b n, h, hs => by
    simp only [bytes] at hs
    simp only [size, bytes, padAlign, roundUp, w32]
    omega
  | .mat b c k, h, hs => by
    simp only [Good] at h
    obtain ⟨h1, hb, hc, hk⟩ := h
    rcases hb with rfl | ⟨rfl, rfl | rfl⟩ <;> rcases hc with rfl | rfl | rfl <;>
      rcases hk with rfl | rfl | rfl <;>
      first
      | (cases r <;> first | exact absurd rfl h1 | exact absurd rfl hr |
          simp [size, bytes, vecAlign, atLeast, roundUp, padded, padAlign, w32])
      | simp [size, bytes, vecAlign, atLeast, roundUp, padded, padAlign, w32]
  | .arr e n, h, hs => by
    simp only [Good] at h
    simp only [bytes] at hs
    obtain ⟨h1, h2⟩ := align_eq hr e h.1
    have hP := atLeast_P hr h2
    have hst : roundUp (bytes r e) (atLeast r (alignOf r e)) < 2 ^ 32 := by
      have := Nat.le_mul_of_pos_left (roundUp (bytes r e) (atLeast r (alignOf r e))) h.2
      omega
    have hse : bytes r e < 2 ^ 32 := Nat.lt_of_le_of_lt (round_le hP) hst
    have ih := size_eq hr e h.1 hse
    have hmax : atLeast r (alignOf r e) = max (atLeast r (alignOf r e)) (padAlign e (alignOf r e)) := by
      rw [atLeast_eq hr h2]
      have : padAlign e (alignOf r e) ≤ max (if padded r = true then 16 else 1) (alignOf r e) := by
        unfold padAlign
        split
        · exact Nat.le_max_right _ _
        · refine Nat.le_trans ?_ (Nat.le_max_left _ _); split <;> omega
      omega
    have hr2 : roundUp (size r e) (atLeast r (alignOf r e)) =
        roundUp (bytes r e) (atLeast r (alignOf r e)) := by
      rw [← ih, ← round_max hP (pad_P h2), ← hmax]
    have hne : ¬ (r = .hlsl ∧ (!isStruct e) = true) := fun q => hr q.1
    simp only [size, bytes, padAlign]
    rw [if_neg hne, h1, ← atLeast_eq hr h2, alignPow2_eq hP (by rw [hr2]; exact hst), hr2]
    simp only [roundUp, w32] at *
    rw [Nat.mul_comm n] at *
    omega
  | .struct ms, h, hs => by
    simp only [Good] at h
    simp only [bytes] at hs
    have hP := (align_eq hr (.struct ms) (by simp only [Good]; exact h)).2
    simp only [alignOf] at hP
    have he : endOf r ms 0 < 2 ^ 32 := Nat.lt_of_le_of_lt (round_le hP) hs
    have hl := (aligns_eq hr ms h).2
    obtain ⟨q, hq, hq1, hq2⟩ := sizes_eq hr ms 0 1 (Or.inl rfl) h he
    simp only [size, bytes, padAlign, alignOf]
    replace hq1 : roundUp (sizeMembers r ms 0 1) q = endOf r ms 0 := hq1
    have hdv : max (atLeast r (largest r ms)) q = atLeast r (largest r ms) := by
      have := hq2
      rw [atLeast_eq hr hl]
      have : 1 ≤ largest r ms := by rcases hl with e | e | e | e | e | e <;> omega
      omega
    rw [← hq1, ← round_max hP hq, hdv]
/-- The end of the code, rounded up to the alignment after the last member. -/
theorem sizes_eq {r : Rules} (hr : r ≠ .hlsl) : ∀ ts s p, P p → Goods r ts →
    endOf r ts (roundUp s p) < 2 ^ 32 →
    ∃ q, P q ∧ roundUp (sizeMembers r ts s p) q = endOf r ts (roundUp s p) ∧
      q ≤ max p (largest r ts)
  | .nil, s, p, hp, _, _ => ⟨p, hp, by simp [sizeMembers, endOf], by omega⟩
  | .cons t ts, s, p, hp, h, he => by
    simp only [Goods] at h
    simp only [endOf] at he
    obtain ⟨h1, h2⟩ := align_eq hr t h.1
    have hge := endOf_ge hr ts (roundUp (roundUp s p) (alignOf r t) + bytes r t) h.2
    have ih := size_eq hr t h.1 (by omega)
    have hoff : alignPow2 s (max (align r t) p) = roundUp (roundUp s p) (alignOf r t) := by
      rw [h1, alignPow2_eq (h2.max hp) (by rw [round_max h2 hp]; omega), round_max h2 hp]
    have hsz : size r t ≤ bytes r t := by rw [← ih]; exact round_le (pad_P h2)
    -- the offset is a multiple of the alignment after the member
    have hadd : roundUp (roundUp (roundUp s p) (alignOf r t) + size r t) (padAlign t (alignOf r t)) =
        roundUp (roundUp s p) (alignOf r t) + bytes r t := by
      have hd : roundUp (roundUp s p) (alignOf r t) % alignOf r t = 0 := round_dvd
      rw [round_add (pad_P h2) ?_, ih]
      unfold padAlign
      split
      · exact hd
      · omega
    have hw : w32 (roundUp (roundUp s p) (alignOf r t) + size r t) =
        roundUp (roundUp s p) (alignOf r t) + size r t := Nat.mod_eq_of_lt (by omega)
    obtain ⟨q, k1, k2, k3⟩ := sizes_eq hr ts (roundUp (roundUp s p) (alignOf r t) + size r t)
      (padAlign t (alignOf r t)) (pad_P h2) h.2 (by rw [hadd]; exact he)
    refine ⟨q, k1, ?_, ?_⟩
    · simp only [sizeMembers, endOf]
      rw [hoff, hw, h1, k2, hadd]
    · simp only [largest]
      have : padAlign t (alignOf r t) ≤ max 1 (alignOf r t) := by unfold padAlign; split <;> omega
      have : 1 ≤ alignOf r t := by rcases h2 with e | e | e | e | e | e <;> omega
      omega
end

end Verif.Packing
