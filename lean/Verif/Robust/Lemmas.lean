import Verif.Robust.Spec

set_option linter.unusedSimpArgs false
set_option linter.unusedVariables false

namespace Verif.Robust

open Spec

theorem pow_split {w : Nat} (h : 0 < w) : 2 ^ w = 2 * 2 ^ (w - 1) := by
  obtain ⟨k, rfl⟩ : ∃ k, w = k + 1 := ⟨w - 1, by omega⟩
  simp [Nat.pow_succ]; omega

theorem ipow_split {w : Nat} (h : 0 < w) : (2 : Int) ^ w = 2 * ((2 ^ (w - 1) : Nat) : Int) := by
  have := pow_split h
  have h2 : ((2 ^ w : Nat) : Int) = (2 : Int) ^ w := by simp
  omega

theorem pow_pos' (w : Nat) : 0 < 2 ^ w := Nat.two_pow_pos w

theorem pow_mono {a b : Nat} (h : a ≤ b) : 2 ^ a ≤ 2 ^ b := Nat.pow_le_pow_right (by omega) h

theorem wrap_nat {w v : Nat} (h : v < 2 ^ w) : wrap w (v : Int) = ⟨w, v⟩ := by
  have h2 : ((2 ^ w : Nat) : Int) = (2 : Int) ^ w := by simp
  simp only [wrap, V.mk.injEq, true_and]
  rw [Int.emod_eq_of_lt (by omega) (by omega)]
  omega

theorem signed_small {w b : Nat} (h : b < 2 ^ (w - 1)) : V.signed ⟨w, b⟩ = b := by
  simp [V.signed, h]

theorem signed_range {w b : Nat} (hw : 0 < w) (h : b < 2 ^ w) :
    -((2 ^ (w - 1) : Nat) : Int) ≤ V.signed ⟨w, b⟩ ∧ V.signed ⟨w, b⟩ < ((2 ^ (w - 1) : Nat) : Int) := by
  have := pow_split hw
  have := ipow_split hw
  unfold V.signed
  simp only
  split <;> omega

theorem signed_nonneg {w b : Nat} (hw : 0 < w) (h : b < 2 ^ w) (h0 : 0 ≤ V.signed ⟨w, b⟩) :
    b < 2 ^ (w - 1) ∧ V.signed ⟨w, b⟩ = b := by
  have := pow_split hw
  have := ipow_split hw
  unfold V.signed at *
  simp only at *
  split at h0
  · rename_i hlt; simp [hlt]
  · omega

theorem signed_wrap {w : Nat} {x : Int} (hw : 0 < w) (h1 : -((2 ^ (w - 1) : Nat) : Int) ≤ x)
    (h2 : x < ((2 ^ (w - 1) : Nat) : Int)) : (wrap w x).signed = x := by
  have e1 := pow_split hw
  have e2 := ipow_split hw
  have hp := pow_pos' (w - 1)
  have h3 : x % (2 : Int) ^ w = x ∧ 0 ≤ x ∨ x % (2 : Int) ^ w = x + 2 ^ w ∧ x < 0 := by
    by_cases h0 : 0 ≤ x
    · exact .inl ⟨Int.emod_eq_of_lt h0 (by omega), h0⟩
    · refine .inr ⟨?_, by omega⟩
      rw [← Int.add_emod_right]
      exact Int.emod_eq_of_lt (by omega) (by omega)
  unfold wrap
  generalize x % (2 : Int) ^ w = y at *
  simp only [V.signed]
  split <;> omega

theorem signed_nat {w v : Nat} (h : v < 2 ^ (w - 1)) : (wrap w (v : Int)).signed = v := by
  rw [wrap_nat, signed_small h]
  have := pow_mono (show w - 1 ≤ w by omega)
  omega

theorem wrap_w (w : Nat) (x : Int) : (wrap w x).w = w := rfl

theorem sclamp_some {x lo hi : V} (h1 : x.w = lo.w) (h2 : x.w = hi.w) (h0 : lo.signed = 0)
    (h3 : 0 ≤ hi.signed) :
    ∃ v, sclamp x lo hi = some v ∧ 0 ≤ v.signed ∧ v.signed ≤ hi.signed ∧
      (0 ≤ x.signed → x.signed ≤ hi.signed → v.signed = x.signed) := by
  refine ⟨_, by simp only [sclamp]; rw [if_pos ⟨h1, h2, by omega⟩], ?_⟩
  repeat' split
  all_goals omega

theorem maxWidth_ge (k w m : Nat) : w ≤ maxWidth k w m := by
  induction k generalizing w with
  | zero => simp [maxWidth]
  | succ k ih =>
    simp only [maxWidth]
    split
    · have := ih (w * 2); omega
    · omega

/-- What is known about an integer. -/
structure Known (c : Ctx) (e : Env) : Prop where
  width : ∀ n, 0 < c.width n
  bits : ∀ n, e.val n < 2 ^ c.width n
  lit : ∀ n b, c.const n = some (.lit b) → e.val n = b
  runtime : ∀ r p, 0 < e.runtime r p ∧ e.runtime r p < 2 ^ 32
  narrow : ∀ n b, c.const n = some (.lit b) → c.signed n = false → c.width n ≠ 32 →
    c.width n ≠ 64 → b < 2 ^ (c.width n - 1)

theorem Spec.Fits.known {c e is} (h : Fits c e is) : Known c e :=
  ⟨h.width, h.bits, h.lit, h.runtime, h.narrow⟩

theorem readSigned_eq {c e} (k : Known c e) {n b} (h : c.const n = some (.lit b)) :
    readSigned (c.width n) (c.signed n) b = V.signed ⟨c.width n, e.val n⟩ := by
  have h1 := k.lit n b h
  unfold readSigned
  split
  · simp [toSigned, V.signed, h1]
  · rename_i hn
    simp at hn
    have := k.narrow n b h hn.1.1 hn.1.2 hn.2
    rw [h1, signed_small this]

/-- The value of an index is in bounds, and is the old value if that is in bounds. -/
def Good (c : Ctx) (e : Env) (loc : Nat → Loc) (n count : Nat) (i : Ix) : Prop :=
  ∃ v, eval c e loc i = some v ∧ 0 ≤ v.signed ∧ v.signed < count ∧
    (0 ≤ V.signed ⟨c.width n, e.val n⟩ → V.signed ⟨c.width n, e.val n⟩ < count →
      v.signed = V.signed ⟨c.width n, e.val n⟩)

theorem clampLiteral_good {c e loc n count i} (k : Known c e) (hc : 0 < count)
    (h : c.clampLiteral n count = .ok i) : Good c e loc n count i := by
  have hw := k.width n
  have hb := k.bits n
  have hr := signed_range hw hb
  unfold Ctx.clampLiteral at h
  simp only at h
  have hmw := maxWidth_ge 7 (c.width n) (count - 1)
  generalize hm : maxWidth 7 (c.width n) (count - 1) = mw at h hmw
  have hpm := pow_mono (show c.width n - 1 ≤ mw - 1 by omega)
  have hp := pow_pos' (c.width n - 1)
  have hmx : min (count - 1) (2 ^ (mw - 1) - 1) < 2 ^ (mw - 1) := by omega
  generalize hmv : min (count - 1) (2 ^ (mw - 1) - 1) = mv at h hmx
  have z0 : ∀ w, (wrap w ((0 : Nat) : Int)).signed = 0 := fun w => by
    have := signed_nat (w := w) (v := 0) (pow_pos' _)
    simpa using this
  split at h
  · cases h
    refine ⟨_, rfl, ?_, ?_, ?_⟩ <;> rw [z0] <;> omega
  split at h
  · cases h
  split at h
  · cases h
  · rename_i b hcst
    rw [readSigned_eq k hcst] at h
    split at h
    · cases h
      refine ⟨_, rfl, ?_, ?_, ?_⟩ <;> rw [z0] <;> omega
    split at h
    · cases h
      refine ⟨_, rfl, ?_, ?_, ?_⟩ <;> omega
    · cases h
      refine ⟨_, rfl, ?_, ?_, ?_⟩ <;> rw [signed_nat hmx] <;> omega
  · split at h
    · cases h
    split at h
    · split at h
      · cases h
      · cases h
        rename_i hgt _
        obtain ⟨v, hv, h1, h2, h3⟩ := sclamp_some
          (x := wrap mw (if c.signed n then V.signed ⟨c.width n, e.val n⟩ else (e.val n : Int)))
          (lo := wrap mw ((0 : Nat) : Int)) (hi := wrap mw (mv : Int)) rfl rfl (z0 _)
          (by rw [signed_nat hmx]; omega)
        rw [signed_nat hmx] at h2 h3
        refine ⟨v, by simpa [eval] using hv, h1, by omega, ?_⟩
        intro g1 g2
        have g3 := signed_nonneg hw hb g1
        have g4 : (wrap mw (if c.signed n then V.signed ⟨c.width n, e.val n⟩
            else (e.val n : Int))).signed = V.signed ⟨c.width n, e.val n⟩ := by
          rw [signed_wrap (by omega)] <;> split <;> omega
        rw [g4] at h3
        apply h3 <;> omega
    · cases h
      have : mw = c.width n := by omega
      subst this
      obtain ⟨v, hv, h1, h2, h3⟩ := sclamp_some
        (x := ⟨c.width n, e.val n⟩) (lo := wrap (c.width n) ((0 : Nat) : Int))
        (hi := wrap (c.width n) (mv : Int))
        rfl rfl (z0 _) (by rw [signed_nat hmx]; omega)
      rw [signed_nat hmx] at h2 h3
      refine ⟨v, by simpa [eval] using hv, h1, by omega, ?_⟩
      intro g1 g2
      apply h3 <;> omega

theorem clampDynamic_good {c e loc n cx cw count} (k : Known c e) (hcw : 0 < cw) (hc : 0 < count)
    (hcl : count < 2 ^ cw) (hcx : eval c e loc cx = some ⟨cw, count⟩) :
    Good c e loc n count (c.clampDynamic n cx cw) := by
  have hw := k.width n
  have hb := k.bits n
  have hr := signed_range hw hb
  unfold Ctx.clampDynamic
  simp only
  generalize ht : max (c.width n) cw = t
  have hp := pow_pos' (t - 1)
  have hpw := pow_mono (show c.width n - 1 ≤ t - 1 by omega)
  have hpt := pow_mono (show t - 1 ≤ t by omega)
  have hpc := pow_mono (show cw ≤ t by omega)
  have hps := pow_split (show 0 < t by omega)
  have z0 : ∀ w, (wrap w ((0 : Nat) : Int)).signed = 0 := fun w => by
    have := signed_nat (w := w) (v := 0) (pow_pos' _)
    simpa using this
  -- the index
  have hidx : ∃ x, eval c e loc (if c.width n < t then .convert true t (.id n) else .id n) = some x ∧
      x.w = t ∧ x.signed = V.signed ⟨c.width n, e.val n⟩ := by
    split
    · refine ⟨_, by simp [eval]; rfl, rfl, ?_⟩
      rw [signed_wrap (by omega)] <;> omega
    · refine ⟨_, by simp [eval], ?_, rfl⟩
      simp; omega
  -- the number of elements
  have hcnt : eval c e loc (if c.width n < t then cx else if cw < t then .convert false t cx else cx) =
      some ⟨t, count⟩ := by
    split
    · rw [hcx]; congr 2; omega
    split
    · simp [eval, hcx]
      rw [wrap_nat (by omega)]
    · rw [hcx]; congr 2; omega
  obtain ⟨x, hx, hxw, hxs⟩ := hidx
  have h1t : 1 < 2 ^ t := by omega
  have hhi : eval c e loc (.umin (.sub (if c.width n < t then cx else if cw < t then
      .convert false t cx else cx) (.lit t 1)) (.lit t (2 ^ (t - 1) - 1))) =
      some ⟨t, min (count - 1) (2 ^ (t - 1) - 1)⟩ := by
    simp only [eval, hcnt]
    have e1 := wrap_nat h1t
    have e2 := wrap_nat (show 2 ^ (t - 1) - 1 < 2 ^ t by omega)
    have e3 : wrap t ((count : Int) - 1) = ⟨t, count - 1⟩ := by
      rw [show (count : Int) - 1 = ((count - 1 : Nat) : Int) by omega, wrap_nat (by omega)]
    simp [sub, e1, e2, e3, umin] at e1 e2 ⊢
  have hsm := signed_small (w := t) (b := min (count - 1) (2 ^ (t - 1) - 1)) (by omega)
  obtain ⟨v, hv, h1, h2, h3⟩ := sclamp_some (x := x) (lo := wrap t ((0 : Nat) : Int))
    (hi := ⟨t, min (count - 1) (2 ^ (t - 1) - 1)⟩) hxw hxw (z0 _)
    (by rw [hsm]; omega)
  rw [hsm] at h2 h3
  refine ⟨v, ?_, h1, by omega, ?_⟩
  · rw [eval, hx, hhi]
    simpa [eval] using hv
  · intro g1 g2
    rw [← hxs]
    apply h3 <;> omega

theorem readUnsigned_eq {c e} (k : Known c e) {n b} (h : c.const n = some (.lit b))
    (hw64 : c.width n ≤ 64) (hs : c.signed n = true → e.val n < 2 ^ (c.width n - 1)) :
    readUnsigned (c.width n) (c.signed n) b = e.val n := by
  have h1 := k.lit n b h
  have hw := k.width n
  unfold readUnsigned
  split
  · rename_i hsg
    have h2 := hs hsg
    simp only [toSigned]
    rw [← h1, if_pos h2]
    have h3 := pow_mono (show c.width n - 1 ≤ (if c.width n ≤ 32 then 32 else 64) by split <;> omega)
    generalize (if c.width n ≤ 32 then 32 else 64) = q at *
    have h4 : ((2 ^ q : Nat) : Int) = (2 : Int) ^ q := by simp
    rw [Int.emod_eq_of_lt (by omega) (by omega)]
    omega
  · exact h1.symm

theorem clampArray_good {c e loc n len i} (k : Known c e) (hc : 0 < e.val len)
    (hs : c.signed len = true → e.val len < 2 ^ (c.width len - 1))
    (h : c.clampArray n len = .ok i) : Good c e loc n (e.val len) i := by
  unfold Ctx.clampArray at h
  split at h
  · cases h
  · rename_i b hcst
    split at h
    · rename_i h64
      rw [readUnsigned_eq k hcst h64 hs] at h
      exact clampLiteral_good k hc h
    · cases h
  · cases h
    exact clampDynamic_good k (k.width len) hc (k.bits len) (by simp [eval])

end Verif.Robust
