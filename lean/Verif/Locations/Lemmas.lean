import Verif.Locations.Spec

/-! Helper lemmas for C69: the slots of a placement. -/

set_option linter.unusedSimpArgs false
set_option linter.unusedVariables false

namespace Verif.Locations
open Spec

theorem u32_of_lt {n : Nat} (h : n < 2 ^ 32) : u32 n = n := Nat.mod_eq_of_lt h

theorem u32_add (a b : Nat) : u32 (u32 a + b) = u32 (a + b) := by unfold u32; omega
theorem u32_mul (a b : Nat) : u32 (u32 a * b) = u32 (a * b) := by
  unfold u32; exact Nat.mod_mul_mod _ _ _
theorem u32_u32 (a : Nat) : u32 (u32 a) = u32 a := by unfold u32; omega

theorem vecLocs_le (b : Bool) (n : Nat) : vecLocs b n = 1 ∨ vecLocs b n = 2 := by
  unfold vecLocs; split <;> simp

mutual
theorem numLocs_plain : ∀ (t : Ty), Plain t → t.numLocs = (true, u32 (locs t))
  | .scalar _, _ => by simp [Ty.numLocs, locs, u32]
  | .vec b n, _ => by
    have e : locs (.vec b n) = vecLocs b n := by simp only [locs, vecLocs]
    rw [e]; simp only [Ty.numLocs]
    rcases vecLocs_le b n with h | h <;> rw [h] <;> rfl
  | .mat b r c, _ => by simp [Ty.numLocs, locs, vecLocs]
  | .arr e none, h => by
    have := numLocs_plain e h.2
    simp [Ty.numLocs, locs, this]
  | .arr e (some n), h => by
    have := numLocs_plain e h.2
    simp [Ty.numLocs, locs, this, u32_mul]
  | .struct ds ms, h => by
    have h2 := numLocsList_plain ms 0 h.2
    have h1 := h.1
    simp only [Ty.numLocs, locs]
    rw [h1]
    have : u32 0 = 0 := rfl
    simpa [this] using h2
  | .psb, _ => by simp [Ty.numLocs, locs, u32]
  | .rarr _, h => by simp [Plain] at h
  | .other, h => by simp [Plain] at h
theorem numLocsList_plain : ∀ (ts : List Ty) (acc : Nat), PlainList ts →
    numLocsList ts (u32 acc) = (true, u32 (acc + locsList ts))
  | [], acc, _ => by simp [numLocsList, locsList]
  | t :: ts, acc, h => by
    have h1 := numLocs_plain t h.1
    have h2 := numLocsList_plain ts (acc + locs t) h.2
    have h3 : u32 (u32 acc + u32 (locs t)) = u32 (acc + locs t) := by unfold u32; omega
    simp [numLocsList, locsList, h1, h3, h2, Nat.add_assoc]
end

theorem numComps_plain : ∀ (t : Ty), Plain t → t.numComps = width t
  | .scalar _, _ => by simp [Ty.numComps, width]
  | .vec b n, h => by
    have h1 : n ≤ 4 := h.2
    simp only [Ty.numComps, width]
    refine u32_of_lt ?_
    cases b <;> simp <;> omega
  | .mat _ _ _, _ => rfl
  | .arr e _, h => numComps_plain e h.2
  | .struct _ _, _ => rfl
  | .psb, _ => rfl
  | .rarr _, h => rfl
  | .other, h => rfl

theorem width_le : ∀ (t : Ty), Plain t → width t ≤ 8
  | .scalar b, _ => by cases b <;> simp [width]
  | .vec b n, h => by
    have h1 : n ≤ 4 := h.2
    cases b <;> simp [width] <;> omega
  | .mat _ _ _, _ => by simp [width]
  | .arr e _, h => width_le e h.2
  | .struct _ _, _ => by simp [width]
  | .psb, _ => by simp [width]
  | .rarr _, h => by simp [width]
  | .other, h => by simp [width]

theorem width_le_locs : ∀ (t : Ty), Plain t → width t ≤ 4 * locs t
  | .scalar b, _ => by cases b <;> simp [width, locs]
  | .vec b n, h => by
    have h1 : n ≤ 4 := h.2
    cases b <;> simp [width, locs]
    · omega
    · split <;> omega
  | .mat _ _ _, _ => by simp [width]
  | .arr e len, h => by
    have h1 := width_le_locs e h.2
    have h2 : 1 ≤ len.getD 1 := h.1
    have h3 := Nat.mul_le_mul_left (locs e) h2
    simp only [width, locs]; omega
  | .struct _ _, _ => by simp [width]
  | .psb, _ => by simp [width, locs]
  | .rarr _, h => by simp [width]
  | .other, h => by simp [width]

/-- Types without components take all of their locations. -/
theorem uses_whole : ∀ (t : Ty) (c k : Nat), Plain t → width t = 0 →
    (uses t c k ↔ k < 4 * locs t)
  | .scalar b, _, _, _, h => by cases b <;> simp [width] at h
  | .vec b n, _, _, h1, h => by
    have h1 : 1 ≤ n := h1.1
    cases b <;> simp [width] at h <;> omega
  | .mat _ _ _, _, _, _, _ => Iff.rfl
  | .struct _ _, _, _, _, _ => Iff.rfl
  | .psb, _, _, _, h => by simp [width] at h
  | .rarr _, _, _, h, _ => by simp [Plain] at h
  | .other, _, _, h, _ => by simp [Plain] at h
  | .arr e len, c, k, h1, h => by
    have ih := fun j => uses_whole e c j h1.2 h
    simp only [uses, locs]
    constructor
    · rintro ⟨i, hi, j, hj, rfl⟩
      rw [ih] at hj
      have := Nat.mul_le_mul_left (locs e) (Nat.succ_le_of_lt hi)
      rw [Nat.mul_succ] at this
      omega
    · intro hk
      have hpos : 0 < 4 * locs e := by
        rcases Nat.eq_zero_or_pos (locs e) with h0 | h0
        · rw [h0] at hk; simp at hk
        · omega
      refine ⟨k / (4 * locs e), ?_, k % (4 * locs e), (ih _).2 (Nat.mod_lt _ hpos), ?_⟩
      · refine (Nat.div_lt_iff_lt_mul hpos).2 ?_
        rw [Nat.mul_comm (len.getD 1), Nat.mul_assoc]; exact hk
      · rw [← Nat.mul_assoc]; exact (Nat.div_add_mod k (4 * locs e)).symm

/-- Types with components take them at their first location. -/
theorem uses_first : ∀ (t : Ty) (c k : Nat), Plain t → c ≤ k → k < c + width t → uses t c k
  | .scalar b, _, _, _, h1, h2 => ⟨h1, by simpa [width] using h2⟩
  | .vec b n, _, _, _, h1, h2 => ⟨h1, by simpa [width] using h2⟩
  | .mat _ _ _, _, _, _, h1, h2 => by simp [width] at h2; omega
  | .struct _ _, _, _, _, h1, h2 => by simp [width] at h2; omega
  | .psb, _, _, _, h1, h2 => ⟨h1, by simpa [width] using h2⟩
  | .rarr _, _, _, h, _, _ => by simp [Plain] at h
  | .other, _, _, h, _, _ => by simp [Plain] at h
  | .arr e len, c, k, h, h1, h2 => by
    have ih := uses_first e c k h.2 h1 h2
    have : 1 ≤ len.getD 1 := h.1
    exact ⟨0, by omega, k, ih, by simp⟩

/-- Types of less than four components, in rows. -/
theorem uses_rows : ∀ (t : Ty) (c k : Nat), Plain t → 1 ≤ width t → width t < 4 →
    (uses t c k ↔ ∃ l, l < locs t ∧ 4 * l + c ≤ k ∧ k < 4 * l + c + width t)
  | .scalar b, c, k, _, _, _ => by
    simp only [uses, width, locs]
    constructor
    · rintro ⟨h1, h2⟩; exact ⟨0, by omega, by omega, by omega⟩
    · rintro ⟨l, hl, h1, h2⟩; obtain rfl : l = 0 := by omega
      exact ⟨by omega, by omega⟩
  | .vec b n, c, k, h, hw, hw2 => by
    have hl : locs (.vec b n) = 1 := by
      simp only [locs]
      simp only [width] at hw hw2
      cases b <;> simp at hw2 ⊢
      omega
    rw [hl]
    simp only [uses, width]
    constructor
    · rintro ⟨h1, h2⟩; exact ⟨0, by omega, by omega, by omega⟩
    · rintro ⟨l, hl, h1, h2⟩; obtain rfl : l = 0 := by omega
      exact ⟨by omega, by omega⟩
  | .mat _ _ _, _, _, _, h, _ => by simp [width] at h
  | .struct _ _, _, _, _, h, _ => by simp [width] at h
  | .psb, c, k, _, _, _ => by
    simp only [uses, width, locs]
    constructor
    · rintro ⟨h1, h2⟩; exact ⟨0, by omega, by omega, by omega⟩
    · rintro ⟨l, hl, h1, h2⟩; obtain rfl : l = 0 := by omega
      exact ⟨by omega, by omega⟩
  | .rarr _, _, _, h, _, _ => by simp [Plain] at h
  | .other, _, _, h, _, _ => by simp [Plain] at h
  | .arr e len, c, k, h, hw, hw2 => by
    have ih := fun j => uses_rows e c j h.2 hw hw2
    simp only [uses, locs, width]
    constructor
    · rintro ⟨i, hi, j, hj, rfl⟩
      obtain ⟨l, hl, h1, h2⟩ := (ih j).1 hj
      refine ⟨locs e * i + l, ?_, by omega, by omega⟩
      have := Nat.mul_le_mul_left (locs e) (Nat.succ_le_of_lt hi)
      rw [Nat.mul_succ] at this
      omega
    · rintro ⟨l, hl, h1, h2⟩
      have hpos : 0 < locs e := by
        rcases Nat.eq_zero_or_pos (locs e) with h0 | h0
        · rw [h0] at hl; simp at hl
        · omega
      have hdm := Nat.div_add_mod l (locs e)
      have hm := Nat.mod_lt l hpos
      refine ⟨l / locs e, (Nat.div_lt_iff_lt_mul hpos).2 (by rw [Nat.mul_comm]; exact hl),
        k - 4 * (locs e * (l / locs e)), (ih _).2 ⟨l % locs e, hm, by omega, by omega⟩, by omega⟩

theorem mem_range {a b s : Nat} : s ∈ range a b ↔ a ≤ s ∧ s < b := by
  simp only [range, List.mem_range'_1]; omega

theorem range_nodup (a b : Nat) : (range a b).Nodup := List.nodup_range' (step := 1)

/-- `flatSlots` for numbers that do not overflow. -/
theorem mem_flat {loc n w c s : Nat} (h1 : loc + n < 2 ^ 29 + 4096) (h2 : c ≤ 3) (h3 : w ≤ 8) :
    s ∈ flatSlots loc n w c ↔
      if w ≠ 0 then loc * 4 + c ≤ s ∧ s < loc * 4 + c + w else loc * 4 ≤ s ∧ s < (loc + n) * 4 := by
  have e1 : u32 (loc * 4 + c) = loc * 4 + c := u32_of_lt (by omega)
  have e2 : u32 (loc * 4 + c + w) = loc * 4 + c + w := u32_of_lt (by omega)
  have e3 : u32 (loc * 4) = loc * 4 := u32_of_lt (by omega)
  have e4 : u32 ((loc + n) * 4) = (loc + n) * 4 := u32_of_lt (by omega)
  unfold flatSlots
  split <;> simp [mem_range, e1, e2, e3, e4]

theorem flat_nodup (loc n w c : Nat) : (flatSlots loc n w c).Nodup := by
  unfold flatSlots; split <;> exact range_nodup _ _

theorem mem_var {loc n w c s : Nat} : ∀ (left i : Nat), s ∈ varSlots loc n w c left i ↔
    ∃ d, d < left ∧ (loc + n * (i + d)) * 4 < maxLocations ∧ s ∈ flatSlots (loc + n * (i + d)) n w c
  | 0, i => by simp [varSlots]
  | left + 1, i => by
    simp only [varSlots]
    split
    · rename_i h
      constructor
      · intro h'; simp at h'
      · rintro ⟨d, _, h2, _⟩
        have : n * i ≤ n * (i + d) := Nat.mul_le_mul_left _ (by omega)
        omega
    · rename_i h
      rw [List.mem_append, mem_var left (i + 1)]
      constructor
      · rintro (h' | ⟨d, h1, h2, h3⟩)
        · exact ⟨0, by omega, by simpa using h, by simpa using h'⟩
        · exact ⟨d + 1, by omega, by rw [show i + (d + 1) = i + 1 + d by omega]; exact h2,
            by rw [show i + (d + 1) = i + 1 + d by omega]; exact h3⟩
      · rintro ⟨d, h1, h2, h3⟩
        cases d with
        | zero => exact .inl (by simpa using h3)
        | succ d =>
          rw [show i + (d + 1) = i + 1 + d by omega] at h2 h3
          exact .inr ⟨d, by omega, h2, h3⟩

theorem var_nodup {loc n w c : Nat} (h1 : n < 2 ^ 29) (h2 : c ≤ 3) (h3 : w ≤ 8)
    (h4 : w ≤ 4 * n) : ∀ (left i : Nat), (varSlots loc n w c left i).Nodup
  | 0, i => by simp [varSlots]
  | left + 1, i => by
    simp only [varSlots]
    split
    · simp
    · rename_i h
      have hm : maxLocations = 16384 := rfl
      rw [List.nodup_append]
      refine ⟨flat_nodup _ _ _ _, var_nodup h1 h2 h3 h4 left (i + 1), ?_⟩
      intro a ha b hb hab
      subst hab
      rw [mem_flat (by omega) h2 h3] at ha
      obtain ⟨d, _, hd, hb⟩ := (mem_var _ _).1 hb
      rw [mem_flat (by omega) h2 h3] at hb
      have hle : n * i + n ≤ n * (i + 1 + d) := by
        rw [← Nat.mul_succ]; exact Nat.mul_le_mul_left _ (by omega)
      generalize n * (i + 1 + d) = x at *
      generalize n * i = y at *
      split at ha <;> simp_all <;> omega

theorem mem_member {isArr : Bool} {loc n w c s : Nat} (h1 : loc + n < 2 ^ 29) (h2 : c ≤ 3) (h3 : w ≤ 8) :
    s ∈ memberSlots isArr loc n w c ↔ loc * 4 < maxLocations ∧
      if isArr = true ∧ 1 ≤ w ∧ w < 4 then
        s < maxLocations ∧ ∃ l, loc ≤ l ∧ l < n + loc ∧ l * 4 + c ≤ s ∧ s < l * 4 + c + w
      else s ∈ flatSlots loc n w c := by
  unfold memberSlots
  by_cases h : maxLocations ≤ loc * 4
  · simp [h]; omega
  · have h' : loc * 4 < maxLocations := by omega
    by_cases hc : isArr = true ∧ 1 ≤ w ∧ w < 4
    · have e1 : u32 (n + loc) = n + loc := u32_of_lt (by omega)
      have e2 : u32 (c + w) = c + w := u32_of_lt (by omega)
      have hc' : (isArr && decide (1 ≤ w) && decide (w < 4)) = true := by simp [hc]
      rw [if_neg h, if_pos hc', if_pos hc]
      simp only [List.mem_flatMap, List.mem_filter, List.mem_map, mem_range, e1, e2,
        decide_eq_true_eq, h', true_and]
      constructor
      · rintro ⟨l, ⟨ha, hb⟩, ⟨x, ⟨hx1, hx2⟩, rfl⟩, hm⟩
        exact ⟨hm, l, ha, hb, by omega, by omega⟩
      · rintro ⟨hm, l, ha, hb, hx1, hx2⟩
        exact ⟨l, ⟨ha, hb⟩, ⟨s - l * 4, ⟨by omega, by omega⟩, by omega⟩, hm⟩
    · have hc' : ¬ (isArr && decide (1 ≤ w) && decide (w < 4)) = true := by
        simp only [Bool.and_eq_true, decide_eq_true_eq]
        exact fun h => hc ⟨h.1.1, h.1.2, h.2⟩
      rw [if_neg h, if_neg hc', if_neg hc]
      simp [h']

theorem member_nodup {isArr : Bool} {loc n w c : Nat} : (memberSlots isArr loc n w c).Nodup := by
  unfold memberSlots
  split
  · simp
  · split
    · rename_i h
      simp only [Bool.and_eq_true, decide_eq_true_eq] at h
      rw [List.Nodup, List.pairwise_flatMap]
      constructor
      · intro l _
        refine List.Pairwise.filter _ (List.Pairwise.map _ ?_ (range_nodup _ _))
        intro a b hab; omega
      · refine List.Pairwise.imp ?_ (range_nodup _ _)
        intro a b hab x hx y hy
        simp only [List.mem_filter, List.mem_map, mem_range] at hx hy
        obtain ⟨⟨p, ⟨hp1, hp2⟩, rfl⟩, _⟩ := hx
        obtain ⟨⟨q, ⟨hq1, hq2⟩, rfl⟩, _⟩ := hy
        have : u32 (c + w) ≤ c + w := Nat.mod_le _ _
        omega
    · exact flat_nodup _ _ _ _

end Verif.Locations
