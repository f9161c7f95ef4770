import Verif.Fold.Spec
import Verif.BitUtils.Props

set_option linter.unusedSimpArgs false
set_option linter.unusedVariables false

namespace Verif.Fold

open Spec

/-! ## Words of integer constants -/

theorem setWidth_signExtend_narrow {v : Nat} (y : BitVec v) (u w : Nat) (h1 : v ≤ u) (h2 : w ≤ v) :
    (y.signExtend u).setWidth w = y.setWidth w := by
  apply BitVec.eq_of_getLsbD_eq
  intro i hi
  simp only [BitVec.getLsbD_setWidth, BitVec.getLsbD_signExtend]
  have : i < u := by omega
  have : i < v := by omega
  simp only [*, decide_true, Bool.true_and, if_true]

theorem setWidth_setWidth_narrow {v : Nat} (y : BitVec v) (u w : Nat) (h1 : v ≤ u) (h2 : w ≤ v) :
    (y.setWidth u).setWidth w = y.setWidth w := by
  apply BitVec.eq_of_getLsbD_eq
  intro i hi
  simp only [BitVec.getLsbD_setWidth]
  have : i < u := by omega
  simp only [*, decide_true, Bool.true_and, if_true]

theorem setWidth_setWidth_wide {v : Nat} (y : BitVec v) (u w : Nat) (h : w ≤ u) :
    (y.setWidth u).setWidth w = y.setWidth w := by
  apply BitVec.eq_of_getLsbD_eq
  intro i hi
  simp only [BitVec.getLsbD_setWidth]
  have : i < u := by omega
  simp only [*, decide_true, Bool.true_and, if_true]

theorem joinWords_split (x : BitVec 64) :
    joinWords (x.setWidth 32) ((x >>> 32).setWidth 32) = x := by
  unfold joinWords
  apply BitVec.eq_of_getLsbD_eq
  intro i hi
  simp only [BitVec.getLsbD_or, BitVec.getLsbD_setWidth, BitVec.getLsbD_shiftLeft,
    BitVec.getLsbD_ushiftRight]
  by_cases h : i < 32
  · simp [h]; intro; omega
  · have h1 : 32 + (i - 32) = i := by omega
    have h2 : i - 32 < 32 := by omega
    have h3 : i - 32 < 64 := by omega
    simp only [h, h1, h2, h3, hi, decide_true, decide_false, Bool.true_and, Bool.false_and,
      Bool.not_false, Bool.and_true, Bool.or_false, Bool.and_false]

theorem width_cases {w : Nat} (h : Width w) : 0 < w ∧ (w ≤ 32 ∨ w = 64) := by
  rcases h with h | h | h | h <;> omega

theorem toInt_signExtend_ge {w v : Nat} (x : BitVec w) (h : w ≤ v) :
    (x.signExtend v).toInt = x.toInt := BitVec.toInt_signExtend_of_le h

/-- Reading an integer constant as unsigned. -/
theorem zeroExtended_spec {c : SConst} {w : Nat} {x : BitVec w} (hw : Width w)
    (h : SDenotes c (.int w x)) :
    ∃ z, zeroExtended c = some z ∧ z.setWidth w = x ∧
      ((∀ s, c.ty = .int w s → s = false ∨ 32 ≤ w) → z.toNat = x.toNat) := by
  obtain ⟨hpos, hcase⟩ := width_cases hw
  match c with
  | .bool b => simp [SDenotes] at h
  | .null .bool => simp [SDenotes] at h
  | .null (.int w' s) =>
      obtain ⟨rfl, rfl⟩ := h
      refine ⟨0#64, ?_, by simp, by simp⟩
      have : w' ≤ 64 := by omega
      simp [zeroExtended, this]
  | .int w' s ws =>
      obtain ⟨rfl, rfl⟩ := h
      rcases hcase with hle | rfl
      · refine ⟨_, by simp only [zeroExtended, literalWords, if_pos hle]; rfl, ?_, ?_⟩
        · rw [setWidth_setWidth_narrow _ _ _ (by omega) hle]
          cases s
          · simp only [Bool.false_eq_true, if_false]
            rw [setWidth_setWidth_narrow _ _ _ hle (Nat.le_refl _), BitVec.setWidth_eq]
          · simp only [if_true]
            rw [setWidth_signExtend_narrow _ _ _ hle (Nat.le_refl _), BitVec.setWidth_eq]
        · intro hs
          have hs := hs s rfl
          rcases hs with rfl | h32
          · have := x.isLt
            have h2 : 2 ^ w' ≤ 2 ^ 32 := Nat.pow_le_pow_right (by omega) hle
            simp [BitVec.toNat_setWidth]
            omega
          · have : w' = 32 := by omega
            subst this
            have := x.isLt
            cases s <;> simp [BitVec.toNat_setWidth] <;> omega
      · refine ⟨_, by simp only [zeroExtended, literalWords]; rfl, ?_, ?_⟩
        · simp [joinWords_split]
        · intro _; simp [joinWords_split]

/-- Reading an integer constant as signed. -/
theorem signExtended_spec {c : SConst} {w : Nat} {x : BitVec w} (hw : Width w)
    (h : SDenotes c (.int w x)) :
    ∃ z, signExtended c = some z ∧ z.setWidth w = x ∧
      ((∀ s, c.ty = .int w s → s = true ∨ 32 ≤ w) → z.toInt = x.toInt) := by
  obtain ⟨hpos, hcase⟩ := width_cases hw
  match c with
  | .bool b => simp [SDenotes] at h
  | .null .bool => simp [SDenotes] at h
  | .null (.int w' s) =>
      obtain ⟨rfl, rfl⟩ := h
      refine ⟨0#64, ?_, by simp, by simp⟩
      have : w' ≤ 64 := by omega
      simp [signExtended, this]
  | .int w' s ws =>
      obtain ⟨rfl, rfl⟩ := h
      rcases hcase with hle | rfl
      · refine ⟨_, by simp only [signExtended, literalWords, if_pos hle]; rfl, ?_, ?_⟩
        · rw [setWidth_signExtend_narrow _ _ _ (by omega) hle]
          cases s
          · simp only [Bool.false_eq_true, if_false]
            rw [setWidth_setWidth_narrow _ _ _ hle (Nat.le_refl _), BitVec.setWidth_eq]
          · simp only [if_true]
            rw [setWidth_signExtend_narrow _ _ _ hle (Nat.le_refl _), BitVec.setWidth_eq]
        · intro hs
          have hs := hs s rfl
          rcases hs with rfl | h32
          · simp only [if_true]
            rw [toInt_signExtend_ge _ (by omega), toInt_signExtend_ge _ hle]
          · have : w' = 32 := by omega
            subst this
            rw [toInt_signExtend_ge _ (by omega)]
            cases s <;> simp
      · refine ⟨_, by simp only [signExtended, literalWords]; rfl, ?_, ?_⟩
        · simp [joinWords_split]
        · intro _; simp [joinWords_split]

/-- Writing an integer constant. -/
theorem generateInt_spec {w : Nat} (hw : Width w) (s : Bool) (r : BitVec 64) :
    ∃ c, generateInt w s r = some c ∧ c.ty = .int w s ∧
      SDenotes c (.int w (r.setWidth w)) := by
  obtain ⟨hpos, hcase⟩ := width_cases hw
  rcases hcase with hle | rfl
  · have hne : w ≠ 64 := by omega
    unfold generateInt
    rw [if_neg hne, if_pos hle]
    have h32 : 2 ^ w ≤ 2 ^ 32 := Nat.pow_le_pow_right (by omega) hle
    cases s
    · obtain ⟨h1, h2⟩ := BitUtils.zeroExtendValue_spec r w
      obtain ⟨e, he⟩ := Option.isSome_iff_exists.mp (h1.mpr (by omega))
      have h3 := h2 e he
      refine ⟨.int w false [e.setWidth 32], by simp only [Bool.false_eq_true, if_false, he]; rfl, rfl, rfl, ?_⟩
      simp only [literalWords, if_pos hle, Bool.false_eq_true, if_false, List.cons.injEq, and_true]
      apply BitVec.eq_of_toNat_eq
      simp only [BitVec.toNat_setWidth, h3]
    · obtain ⟨h1, h2⟩ := BitUtils.signExtendValue_spec r w
      obtain ⟨e, he⟩ := Option.isSome_iff_exists.mp (h1.mpr ⟨by omega, by omega⟩)
      have h3 := h2 e he
      refine ⟨.int w true [e.setWidth 32], by simp only [if_true, he]; rfl, rfl, rfl, ?_⟩
      simp only [literalWords, if_pos hle, if_true, List.cons.injEq, and_true]
      have h4 : e = (r.setWidth w).signExtend 64 := by
        apply BitVec.eq_of_toInt_eq
        rw [h3, toInt_signExtend_ge _ (by omega), BitVec.toInt_setWidth]
      rw [h4]
      apply BitVec.eq_of_getLsbD_eq
      intro i hi
      simp only [BitVec.getLsbD_setWidth, BitVec.getLsbD_signExtend]
      have : i < 64 := by omega
      simp [*]
  · refine ⟨_, by simp only [generateInt, if_pos]; rfl, rfl, ?_⟩
    simp [SDenotes, literalWords]

/-! ## Integers and bit vectors -/

theorem ofInt_bmod (w v : Nat) (h : w ≤ v) (q : Int) :
    BitVec.ofInt w (q.bmod (2 ^ v)) = BitVec.ofInt w q := by
  apply BitVec.eq_of_toInt_eq
  simp only [BitVec.toInt_ofInt]
  apply Int.bmod_bmod_of_dvd
  exact Nat.pow_dvd_pow 2 h

theorem setWidth_eq_ofInt {v w : Nat} (h : w ≤ v) (z : BitVec v) :
    z.setWidth w = BitVec.ofInt w z.toInt := by
  apply BitVec.eq_of_toInt_eq
  rw [BitVec.toInt_ofInt, BitVec.toInt_setWidth, BitVec.toInt_eq_toNat_bmod]
  rw [Int.bmod_bmod_of_dvd (Nat.pow_dvd_pow 2 h)]

theorem setWidth_eq_ofNat {v w : Nat} (z : BitVec v) :
    z.setWidth w = BitVec.ofInt w (z.toNat : Int) := by
  apply BitVec.eq_of_toNat_eq
  simp [BitVec.toNat_setWidth]

/-- Reading a signed constant as signed, or any constant of at least 32 bits. -/
def SignOk (s : Bool) (w : Nat) : Prop := s = true ∨ 32 ≤ w

theorem toInt_eq_min64 (a : BitVec 64) : a = int64Min ↔ a.toInt = -2 ^ 63 := by
  constructor
  · rintro rfl; decide
  · intro h
    apply BitVec.eq_of_toInt_eq
    rw [h]; decide

theorem toInt_eq_neg1 (a : BitVec 64) : a = -1#64 ↔ a.toInt = -1 := by
  constructor
  · rintro rfl; decide
  · intro h
    apply BitVec.eq_of_toInt_eq
    rw [h]; decide

theorem toInt_eq_zero {w : Nat} (a : BitVec w) : a = 0#w ↔ a.toInt = 0 := by
  constructor
  · rintro rfl; simp
  · intro h
    apply BitVec.eq_of_toInt_eq
    rw [h]; simp

/-- `%` with the sign fixed up, for a non-zero remainder or a positive divisor. -/
theorem fmod_eq (a b : Int) (hb : b ≠ 0) :
    a.fmod b = if a.tmod b = 0 then 0
      else if (decide (b < 0)) != (decide (a.tmod b < 0)) then a.tmod b + b else a.tmod b := by
  have h1 := @Int.fmod_eq_emod a b
  have h2 := @Int.tmod_eq_emod a b
  have h3 := Int.emod_nonneg a hb
  have h4 := Int.emod_lt a hb
  by_cases hd : b ∣ a
  · have h5 : a % b = 0 := Int.emod_eq_zero_of_dvd hd
    simp [hd, h5] at h1 h2
    simp [h1, h2]
  · have h5 : a % b ≠ 0 := fun h => hd (Int.dvd_of_emod_eq_zero h)
    simp only [hd, or_false] at h1 h2
    by_cases hb0 : 0 ≤ b <;> by_cases ha0 : 0 ≤ a <;>
      simp only [hb0, ha0, if_true, if_false] at h1 h2 <;> rw [h1, h2] <;>
      · generalize a % b = m at *
        simp only [bne_iff_ne, ne_eq, decide_eq_decide]
        split
        · omega
        · split <;> omega

/-! ## The arithmetic lambdas -/

theorem intOp_modular {w : Nat} (hw : w ≤ 64) (op : Op) (hop : op = .iAdd ∨ op = .iSub ∨ op = .iMul)
    (za zb : BitVec 64) :
    ∃ z n, intOp op za zb = some z ∧ intResult op (za.setWidth w) (zb.setWidth w) = some n ∧
      z.setWidth w = BitVec.ofInt w n := by
  rcases hop with rfl | rfl | rfl
  · refine ⟨_, _, rfl, rfl, ?_⟩
    rw [BitVec.setWidth_add _ _ hw, BitVec.ofInt_add, BitVec.ofInt_toInt, BitVec.ofInt_toInt]
  · refine ⟨_, _, rfl, rfl, ?_⟩
    have h1 : (za - zb).setWidth w = za.setWidth w - zb.setWidth w := by
      rw [BitVec.sub_eq_add_neg, BitVec.sub_eq_add_neg, BitVec.setWidth_add _ _ hw]
      congr 1
      rw [setWidth_eq_ofInt hw, BitVec.toInt_neg, ofInt_bmod _ _ hw, BitVec.ofInt_neg,
        ← setWidth_eq_ofInt hw]
    rw [h1, Int.sub_eq_add_neg, BitVec.ofInt_add, BitVec.ofInt_neg, BitVec.ofInt_toInt,
      BitVec.ofInt_toInt, BitVec.sub_eq_add_neg]
  · refine ⟨_, _, rfl, rfl, ?_⟩
    rw [BitVec.setWidth_mul _ _ hw, BitVec.ofInt_mul, BitVec.ofInt_toInt, BitVec.ofInt_toInt]

theorem intOp_unsigned {w : Nat} (hw : w ≤ 64) (op : Op) (hop : op = .uDiv ∨ op = .uMod)
    (za zb : BitVec 64) (x y : BitVec w) (hx : za.toNat = x.toNat) (hy : zb.toNat = y.toNat) :
    ∃ z, intOp op za zb = some z ∧
      ∀ n, intResult op x y = some n → z.setWidth w = BitVec.ofInt w n := by
  have hz : zb = 0#64 ↔ y.toNat = 0 := by
    rw [← hy]
    constructor
    · rintro rfl; rfl
    · intro h; exact BitVec.eq_of_toNat_eq (by simpa using h)
  rcases hop with rfl | rfl
  · by_cases h0 : zb = 0#64
    · refine ⟨0#64, by simp [intOp, h0], ?_⟩
      intro n hn
      simp [intResult, hz.mp h0] at hn
    · refine ⟨za / zb, by simp [intOp, h0], ?_⟩
      intro n hn
      have h1 : y.toNat ≠ 0 := fun h => h0 (hz.mpr h)
      simp only [intResult, if_neg h1, Option.some.injEq] at hn
      rw [← hn, setWidth_eq_ofNat, BitVec.toNat_udiv, hx, hy]
  · by_cases h0 : zb = 0#64
    · refine ⟨0#64, by simp [intOp, h0], ?_⟩
      intro n hn
      simp [intResult, hz.mp h0] at hn
    · refine ⟨za % zb, by simp [intOp, h0], ?_⟩
      intro n hn
      have h1 : y.toNat ≠ 0 := fun h => h0 (hz.mpr h)
      simp only [intResult, if_neg h1, Option.some.injEq] at hn
      rw [← hn, setWidth_eq_ofNat, BitVec.toNat_umod, hx, hy]

theorem toInt_sdiv64 (a b : BitVec 64) :
    (a.sdiv b).toInt = (a.toInt.tdiv b.toInt).bmod (2 ^ 64) := BitVec.toInt_sdiv a b

theorem toInt_srem64 (a b : BitVec 64) : (a.srem b).toInt = a.toInt.tmod b.toInt :=
  BitVec.toInt_srem a b

theorem intOp_signed {w : Nat} (hw : w ≤ 64) (op : Op)
    (hop : op = .sDiv ∨ op = .sRem ∨ op = .sMod)
    (za zb : BitVec 64) (x y : BitVec w) (hx : za.toInt = x.toInt) (hy : zb.toInt = y.toInt)
    (hmod : op = .sMod → y.toInt < 0 → x.toInt.tmod y.toInt ≠ 0) :
    (¬ (x.toInt = -2 ^ 63 ∧ y.toInt = -1) → (intOp op za zb).isSome) ∧
    ∀ z, intOp op za zb = some z →
      ∀ n, intResult op x y = some n → z.setWidth w = BitVec.ofInt w n := by
  have hz : zb = 0#64 ↔ y.toInt = 0 := by rw [← hy]; exact toInt_eq_zero zb
  have ho : (za = int64Min ∧ zb = -1#64) ↔ (x.toInt = -2 ^ 63 ∧ y.toInt = -1) := by
    rw [toInt_eq_min64, toInt_eq_neg1, hx, hy]
  rcases hop with rfl | rfl | rfl
  · by_cases h0 : zb = 0#64
    · simp [intOp, intResult, h0, hz.mp h0]
    · have h1 : y.toInt ≠ 0 := fun h => h0 (hz.mpr h)
      by_cases hov : za = int64Min ∧ zb = -1#64
      · simp only [intOp, hostSDiv, ne_eq, h0, not_false_eq_true, if_true, if_false, if_pos hov]
        exact ⟨fun h => absurd (ho.mp hov) h, by simp⟩
      · simp only [intOp, hostSDiv, ne_eq, h0, not_false_eq_true, if_true, if_false, if_neg hov]
        refine ⟨by simp, ?_⟩
        rintro z ⟨⟩ n hn
        simp only [intResult] at hn
        split at hn
        · cases hn
        · cases hn
          rw [setWidth_eq_ofInt hw, toInt_sdiv64, ofInt_bmod _ _ hw, hx, hy]
  · by_cases h0 : zb = 0#64
    · simp [intOp, intResult, h0, hz.mp h0]
    · by_cases hov : za = int64Min ∧ zb = -1#64
      · simp only [intOp, hostSRem, ne_eq, h0, not_false_eq_true, if_true, if_false, if_pos hov]
        exact ⟨fun h => absurd (ho.mp hov) h, by simp⟩
      · simp only [intOp, hostSRem, ne_eq, h0, not_false_eq_true, if_true, if_false, if_neg hov]
        refine ⟨by simp, ?_⟩
        rintro z ⟨⟩ n hn
        simp only [intResult] at hn
        split at hn
        · cases hn
        · cases hn
          rw [setWidth_eq_ofInt hw, toInt_srem64, hx, hy]
  · by_cases h0 : zb = 0#64
    · simp [intOp, intResult, h0, hz.mp h0]
    · by_cases hov : za = int64Min ∧ zb = -1#64
      · simp only [intOp, hostSRem, h0, if_false, if_pos hov]
        exact ⟨fun h => absurd (ho.mp hov) h, by simp⟩
      · simp only [intOp, hostSRem, h0, if_false, if_neg hov, Option.map_some]
        refine ⟨by simp, ?_⟩
        rintro z ⟨⟩ n hn
        simp only [intResult] at hn
        split at hn
        · cases hn
        · rename_i hu
          cases hn
          have hy0 : y.toInt ≠ 0 := fun h => hu (Or.inl h)
          rw [fmod_eq _ _ hy0]
          unfold smodFix
          rw [toInt_srem64, hx, hy]
          by_cases hm : x.toInt.tmod y.toInt = 0
          · have hyn : ¬ y.toInt < 0 := fun h => hmod rfl h hm
            rw [if_neg (by simp [hm, hyn]), if_pos hm, setWidth_eq_ofInt hw, toInt_srem64, hx, hy, hm]
          · rw [if_neg hm]
            split
            · rw [BitVec.setWidth_add _ _ hw, BitVec.ofInt_add, setWidth_eq_ofInt hw, toInt_srem64,
                setWidth_eq_ofInt hw, hx, hy]
            · rw [setWidth_eq_ofInt hw, toInt_srem64, hx, hy]

end Verif.Fold
