import Verif.Unroll.Spec
/-!
Helper lemmas; no claims.
-/
set_option linter.unusedSimpArgs false
set_option linter.unusedVariables false

namespace Verif.Unroll
open Spec

/-! ## Reading constants -/

theorem setWidth_toNat_le {w : Nat} (b : BitVec w) (h : w ≤ 32) : (b.setWidth 32).toNat = b.toNat := by
  rw [BitVec.toNat_setWidth, Nat.mod_eq_of_lt]
  exact Nat.lt_of_lt_of_le b.isLt (Nat.pow_le_pow_right (by omega) h)

theorem toInt_of_msb {w : Nat} (b : BitVec w) (h : b.msb = false) : b.toInt = b.toNat := by
  rw [BitVec.toInt_eq_msb_cond]; simp [h]

theorem signExtend_msb {w : Nat} (b : BitVec w) (h : b.msb = false) (h2 : w ≤ 32) :
    (b.signExtend 32).toInt = b.toNat := by
  rw [BitVec.toInt_signExtend_of_le h2, toInt_of_msb b h]

theorem setWidth64_msb {w : Nat} (b : BitVec w) (hw : w = 64) : b.setWidth 64 = hw ▸ b := by
  subst hw; simp

theorem append_halves (v : BitVec 64) : ((v >>> 32).setWidth 32 ++ v.setWidth 32 : BitVec 64) = v := by
  apply BitVec.eq_of_toNat_eq
  rw [BitVec.toNat_append]
  simp only [BitVec.toNat_setWidth, BitVec.toNat_ushiftRight]
  rw [← Nat.shiftLeft_add_eq_or_of_lt (Nat.mod_lt _ (by decide)), Nat.shiftLeft_eq, Nat.shiftRight_eq_div_pow]
  have := v.isLt
  omega

theorem value_eq {w : Nat} {sg : Bool} {c : IntConst} {b : BitVec w} (hw : 0 < w ∧ (w ≤ 32 ∨ w = 64))
    (hd : Denotes c b) (hs : SameSign sg c b) : c.value = num sg b := by
  obtain ⟨hcw, hd⟩ := hd
  unfold IntConst.value num
  by_cases hn : c.null = true
  · simp only [hn, if_true] at hd ⊢
    subst hd; cases sg <;> simp
  · simp only [hn, Bool.false_eq_true, if_false] at hd ⊢
    rw [hcw]
    by_cases h32 : w ≤ 32
    · simp only [h32, if_true]
      simp only [words, h32, if_true] at hd
      have h0 : c.word 0 = if c.signed then b.signExtend 32 else b.setWidth 32 := by
        simp [IntConst.word, hd]
      rw [h0]
      rcases hs with ⟨h1, _⟩ | h1
      · rw [h1]
        cases sg
        · simp only [Bool.false_eq_true, if_false]; rw [setWidth_toNat_le b h32]
        · simp only [if_true]; rw [BitVec.toInt_signExtend_of_le h32]
      · cases hc : c.signed <;> cases sg <;> simp only [Bool.false_eq_true, if_false, if_true]
        · rw [setWidth_toNat_le b h32]
        · rw [setWidth_toNat_le b h32, toInt_of_msb b h1]
        · exact signExtend_msb b h1 h32
        · rw [signExtend_msb b h1 h32, toInt_of_msb b h1]
    · have h64 : w = 64 := by omega
      subst h64
      simp only [h32, if_false]
      simp only [words, h32, if_false] at hd
      have hv : (if c.signed then b.signExtend 64 else b.setWidth 64 : BitVec 64) = b := by
        split <;> simp
      rw [hv] at hd
      have h0 : c.word 0 = b.setWidth 32 := by simp [IntConst.word, hd]
      have h1 : c.word 1 = (b >>> 32).setWidth 32 := by simp [IntConst.word, hd]
      rw [h0, h1, append_halves]
      rcases hs with ⟨_, h | h⟩ | h
      · omega
      · simp [h]
      · cases sg <;> simp [toInt_of_msb b h]

theorem step_eq {w : Nat} {c : IntConst} {b : BitVec w} (hw : 0 < w ∧ (w ≤ 32 ∨ w = 64))
    (hd : Denotes c b) (hn : c.null = false) (hf : StepFits c b) : c.step = num c.signed b := by
  obtain ⟨hcw, hd⟩ := hd
  simp only [hn, Bool.false_eq_true, if_false] at hd
  unfold IntConst.step num
  by_cases h32 : w ≤ 32
  · simp only [words, h32, if_true] at hd
    have h0 : c.word 0 = if c.signed then b.signExtend 32 else b.setWidth 32 := by
      simp [IntConst.word, hd]
    rw [h0]
    cases c.signed <;> simp only [Bool.false_eq_true, if_false, if_true]
    · rw [setWidth_toNat_le b h32]
    · rw [BitVec.toInt_signExtend_of_le h32]
  · have h64 : w = 64 := by omega
    subst h64
    simp only [words, h32, if_false] at hd
    have hv : (if c.signed then b.signExtend 64 else b.setWidth 64 : BitVec 64) = b := by
      split <;> simp
    rw [hv] at hd
    have h0 : c.word 0 = b.setWidth 32 := by simp [IntConst.word, hd]
    rw [h0]
    rcases hf with hf | hf
    · omega
    · cases hc : c.signed <;> simp only [hc, Bool.false_eq_true, if_false, if_true] at hf ⊢
      · rw [BitVec.toNat_setWidth, Nat.mod_eq_of_lt hf]
      · have h2 : (b.setWidth 32).toInt = b.toInt.bmod (2 ^ 32) := by
          rw [BitVec.toInt_setWidth]
          rw [BitVec.toInt_eq_toNat_bmod, Int.bmod_bmod_of_dvd]
          decide
        rw [h2, Int.bmod_eq_of_le] <;> omega

/-! ## Counting -/

theorem divideUp_spec {d s : Int} (hd : 0 < d) (hs : s ≠ 0) :
    0 < divideUp d s ∧ (divideUp d s - 1) * s.natAbs < d ∧ d ≤ divideUp d s * s.natAbs := by
  unfold divideUp
  have hd' : ((d.natAbs : Nat) : Int) = d := by omega
  rw [hd']
  generalize hS : ((s.natAbs : Nat) : Int) = S
  have hSp : 0 < S := by omega
  simp only []
  rw [Int.tdiv_eq_ediv_of_nonneg (by omega), Int.tmod_eq_emod_of_nonneg (by omega)]
  have h1 := Int.mul_ediv_add_emod d S
  have h2 := Int.emod_nonneg d (show S ≠ 0 by omega)
  have h3 := Int.emod_lt_of_pos d hSp
  generalize d / S = q at *
  generalize d % S = r at *
  have hq : 0 ≤ q := by
    by_cases h : 0 ≤ q
    · exact h
    · have : S * q ≤ S * (-1) := Int.mul_le_mul_of_nonneg_left (by omega) (by omega)
      omega
  rw [Int.mul_comm S q] at h1
  split
  · rename_i hr
    have hr : r ≠ 0 := hr
    have e1 : (q + 1) * S = q * S + S := by rw [Int.add_mul, Int.one_mul]
    have e2 : (q + 1 - 1) * S = q * S := by congr 1; omega
    rw [e1, e2]; omega
  · rename_i hr
    have hr : r = 0 := by simpa using hr
    have e2 : (q - 1) * S = q * S - S := by rw [Int.sub_mul, Int.one_mul]
    rw [e2]
    refine ⟨?_, by omega, by omega⟩
    by_cases h0 : q = 0
    · subst h0; omega
    · omega

/-- The comparison on numbers. -/
def relNum (r : Rel) (v b : Int) : Prop :=
  match r with
  | .lt => v < b
  | .gt => v > b
  | .le => v ≤ b
  | .ge => v ≥ b

def upward : Rel → Prop
  | .lt | .le => True
  | .gt | .ge => False

theorem mul_step_le {k n : Int} {S : Int} (hS : 0 < S) (h : k ≤ n) : k * S ≤ n * S :=
  Int.mul_le_mul_of_nonneg_right h (by omega)

theorem getIterations_spec {r : Rel} {b i s n : Int} (h : getIterations r b i s = some n) (hn : 0 < n) :
    s ≠ 0 ∧ (0 < s ↔ upward r) ∧ (∀ k : Int, k < n → relNum r (i + k * s) b) ∧
      (∀ k : Int, n ≤ k → ¬ relNum r (i + k * s) b) := by
  unfold getIterations at h
  split at h
  · simp at h; omega
  rename_i hs0
  have key : ∀ d : Int, 0 < d → n = divideUp d s →
      (∀ k : Int, k < n → k * (s.natAbs : Int) < d) ∧ (∀ k : Int, n ≤ k → d ≤ k * (s.natAbs : Int)) := by
    intro d hd hnd
    have hS : (0 : Int) < (s.natAbs : Int) := by omega
    obtain ⟨h1, h2, h3⟩ := divideUp_spec hd hs0
    rw [← hnd] at h1 h2 h3
    refine ⟨fun k hk => ?_, fun k hk => ?_⟩
    · have := mul_step_le hS (show k ≤ n - 1 by omega); omega
    · have := mul_step_le hS hk; omega
  have pos : 0 < s → ((s.natAbs : Nat) : Int) = s := by omega
  have neg : s < 0 → ∀ k : Int, k * ((s.natAbs : Nat) : Int) = -(k * s) := by
    intro hs k
    rw [show ((s.natAbs : Nat) : Int) = -s by omega, Int.mul_neg]
  cases r with
  | lt =>
    simp only at h
    split at h
    · simp at h; omega
    rename_i hib
    rw [Option.bind_eq_some_iff] at h
    obtain ⟨d, hd, h⟩ := h
    unfold i64 at hd; split at hd <;> simp at hd
    split at h <;> simp at h
    · omega
    obtain ⟨k1, k2⟩ := key d (by omega) h.symm
    have hs : 0 < s := by omega
    rw [pos hs] at k1 k2
    refine ⟨hs0, by simp [upward, hs], fun k hk => ?_, fun k hk => ?_⟩
    · have := k1 k hk; simp only [relNum]; omega
    · have := k2 k hk; simp only [relNum]; omega
  | gt =>
    simp only at h
    split at h
    · simp at h; omega
    rename_i hib
    rw [Option.bind_eq_some_iff] at h
    obtain ⟨d, hd, h⟩ := h
    unfold i64 at hd; split at hd <;> simp at hd
    split at h <;> simp at h
    · omega
    obtain ⟨k1, k2⟩ := key d (by omega) h.symm
    have hs : s < 0 := by omega
    refine ⟨hs0, by simp [upward]; omega, fun k hk => ?_, fun k hk => ?_⟩
    · have := k1 k hk; rw [neg hs] at this; simp only [relNum]; omega
    · have := k2 k hk; rw [neg hs] at this; simp only [relNum]; omega
  | ge =>
    simp only at h
    split at h
    · simp at h; omega
    rename_i hib
    rw [Option.bind_eq_some_iff] at h
    obtain ⟨b', hb', h⟩ := h
    rw [Option.bind_eq_some_iff] at h
    obtain ⟨d, hd, h⟩ := h
    unfold i64 at hd hb'; split at hb' <;> simp at hb'; split at hd <;> simp at hd
    split at h <;> simp at h
    · omega
    obtain ⟨k1, k2⟩ := key d (by omega) h.symm
    have hs : s < 0 := by omega
    refine ⟨hs0, by simp [upward]; omega, fun k hk => ?_, fun k hk => ?_⟩
    · have := k1 k hk; rw [neg hs] at this; simp only [relNum]; omega
    · have := k2 k hk; rw [neg hs] at this; simp only [relNum]; omega
  | le =>
    simp only at h
    split at h
    · simp at h; omega
    rename_i hib
    rw [Option.bind_eq_some_iff] at h
    obtain ⟨b', hb', h⟩ := h
    rw [Option.bind_eq_some_iff] at h
    obtain ⟨d, hd, h⟩ := h
    unfold i64 at hd hb'; split at hb' <;> simp at hb'; split at hd <;> simp at hd
    split at h <;> simp at h
    · omega
    obtain ⟨k1, k2⟩ := key d (by omega) h.symm
    have hs : 0 < s := by omega
    rw [pos hs] at k1 k2
    refine ⟨hs0, by simp [upward, hs], fun k hk => ?_, fun k hk => ?_⟩
    · have := k1 k hk; simp only [relNum]; omega
    · have := k2 k hk; simp only [relNum]; omega

/-! ## Bit patterns as numbers -/

theorem compare_iff {w : Nat} (r : Rel) (sg : Bool) (x y : BitVec w) :
    compare r sg x y = true ↔ relNum r (num sg x) (num sg y) := by
  cases r <;> cases sg <;>
    simp [compare, relNum, num, BitVec.slt_iff_toInt_lt, BitVec.sle_iff_toInt_le, BitVec.ult, BitVec.ule]

theorem num_inRange {w : Nat} (hw : 0 < w) (sg : Bool) (x : BitVec w) : InRange sg w (num sg x) := by
  unfold InRange num
  cases sg
  · simp only [Bool.false_eq_true, if_false]
    have := x.isLt
    exact ⟨by omega, by exact_mod_cast this⟩
  · simp only [if_true]
    exact ⟨BitVec.le_toInt x, BitVec.toInt_lt⟩

theorem pow_split {w : Nat} (hw : 0 < w) : (2 : Int) ^ w = 2 * 2 ^ (w - 1) := by
  obtain ⟨v, rfl⟩ : ∃ v, w = v + 1 := ⟨w - 1, by omega⟩
  rw [Int.pow_succ]; simp; omega

theorem num_ofInt {w : Nat} (hw : 0 < w) (sg : Bool) (v : Int) (h : InRange sg w v) :
    num sg (BitVec.ofInt w v) = v := by
  unfold InRange at h; unfold num
  cases sg
  · simp only [Bool.false_eq_true, if_false] at h ⊢
    rw [BitVec.toNat_ofInt]
    have : v % ((2 ^ w : Nat) : Int) = v := Int.emod_eq_of_lt h.1 (by exact_mod_cast h.2)
    rw [this]; omega
  · simp only [if_true] at h ⊢
    rw [BitVec.toInt_ofInt]
    have e := pow_split hw
    have e' : ((2 ^ w : Nat) : Int) = 2 * 2 ^ (w - 1) := by rw [← e]; simp
    apply Int.bmod_eq_of_le <;> omega

theorem num_ofInt_add {w : Nat} (v : Int) : BitVec.ofInt w (v + 2 ^ w) = BitVec.ofInt w v := by
  apply BitVec.eq_of_toInt_eq
  rw [BitVec.toInt_ofInt, BitVec.toInt_ofInt]
  have : (2 : Int) ^ w = ((2 ^ w : Nat) : Int) := by simp
  rw [this, Int.add_bmod_right]

theorem ofInt_num {w : Nat} (sg : Bool) (x : BitVec w) : BitVec.ofInt w (num sg x) = x := by
  unfold num; cases sg <;> simp

theorem delta_bits {w : Nat} {σ : Type} (c : IntConst) (l : Loop w σ) (x : BitVec w) :
    l.next x = x + BitVec.ofInt w (delta c l) := by
  unfold Loop.next delta
  cases l.sub <;> simp only [Bool.false_eq_true, if_false, if_true]
  · rw [ofInt_num]
  · rw [BitVec.ofInt_neg, ofInt_num, BitVec.sub_eq_add_neg]

theorem at_eq {w : Nat} {σ : Type} (c : IntConst) (l : Loop w σ) (sg : Bool) (k : Nat) :
    at_ l k = BitVec.ofInt w (num sg l.init + k * delta c l) := by
  induction k with
  | zero => simp [at_, ofInt_num]
  | succ k ih =>
    rw [at_, delta_bits c, ih, ← BitVec.ofInt_add]
    congr 1
    have : ((k + 1 : Nat) : Int) * delta c l = k * delta c l + delta c l := by
      rw [show ((k + 1 : Nat) : Int) = k + 1 by omega, Int.add_mul, Int.one_mul]
    omega

theorem range_convex {sg : Bool} {w : Nat} {a b v : Int} (ha : InRange sg w a) (hb : InRange sg w b)
    (h1 : a ≤ v) (h2 : v ≤ b) : InRange sg w v := by
  unfold InRange at *; cases sg <;> simp only [Bool.false_eq_true, if_false, if_true] at * <;> omega

theorem delta_small {w : Nat} {σ : Type} {c : IntConst} {l : Loop w σ} (hw : 0 < w) :
    -2 ^ w < delta c l ∧ delta c l < 2 ^ w := by
  have h := num_inRange hw c.signed l.step
  have e := pow_split hw
  have : (0 : Int) < 2 ^ (w - 1) := Int.pow_pos (by omega)
  unfold InRange at h; unfold delta
  generalize c.signed = sg at h ⊢
  cases sg <;> simp only [Bool.false_eq_true, if_false, if_true] at h <;>
    cases l.sub <;> simp only [Bool.false_eq_true, if_false, if_true] <;> omega

/-- All values before the last one are in range. -/
theorem inRange_before {sg : Bool} {w : Nat} {r : Rel} {i b s : Int} {n : Nat}
    (hi : InRange sg w i) (hb : InRange sg w b) (hup : 0 < s ↔ upward r) (hs : s ≠ 0)
    (hk : ∀ k : Int, k < n → relNum r (i + k * s) b) {k : Nat} (h : k < n) :
    InRange sg w (i + k * s) := by
  have h1 := hk k (by omega)
  by_cases hp : 0 < s
  · have hr := hup.1 hp
    have h0 : 0 ≤ (k : Int) * s := Int.mul_nonneg (by omega) (by omega)
    refine range_convex hi hb (by omega) ?_
    cases r <;> simp [relNum, upward] at h1 hr <;> omega
  · have hr : ¬ upward r := fun e => hp (hup.2 e)
    have h0 : (k : Int) * s ≤ 0 := Int.mul_nonpos_of_nonneg_of_nonpos (by omega) (by omega)
    refine range_convex hb hi ?_ (by omega)
    cases r <;> simp [relNum, upward] at h1 hr <;> omega

theorem stays_iff {w : Nat} {σ : Type} {l : Loop w σ} (hl : l.leaveOnTrue = false) (x : BitVec w) :
    l.stays x = true ↔ relNum l.rel (num l.signed x) (num l.signed l.bound) := by
  rw [← compare_iff]; simp [Loop.stays, hl]

/-- When the last step wraps around, the condition still holds. -/
theorem wrap_stays {sg : Bool} {w : Nat} {r : Rel} {i b s v : Int} (hw : 0 < w)
    (hb : InRange sg w b) (hup : 0 < s ↔ upward r) (hs : s ≠ 0) (hsm : -2 ^ w < s ∧ s < 2 ^ w)
    (hv : InRange sg w v) (hrel : relNum r v b) (hout : ¬ InRange sg w (v + s)) :
    relNum r (num sg (BitVec.ofInt w (v + s))) b := by
  have e := pow_split hw
  have hpos : (0 : Int) < 2 ^ (w - 1) := Int.pow_pos (by omega)
  by_cases hp : 0 < s
  · have hr := hup.1 hp
    have hin : InRange sg w (v + s - 2 ^ w) := by
      unfold InRange at hv hout ⊢
      cases sg <;> simp only [Bool.false_eq_true, if_false, if_true] at hv hout ⊢ <;> omega
    have : BitVec.ofInt w (v + s) = BitVec.ofInt w (v + s - 2 ^ w) := by
      rw [← num_ofInt_add (v + s - 2 ^ w)]; congr 1; omega
    rw [this, num_ofInt hw sg _ hin]
    cases r <;> simp [relNum, upward] at hrel hr ⊢ <;> omega
  · have hr : ¬ upward r := fun e => hp (hup.2 e)
    have hin : InRange sg w (v + s + 2 ^ w) := by
      unfold InRange at hv hout ⊢
      cases sg <;> simp only [Bool.false_eq_true, if_false, if_true] at hv hout ⊢ <;> omega
    rw [← num_ofInt_add, num_ofInt hw sg _ hin]
    cases r <;> simp [relNum, upward] at hrel hr ⊢ <;> omega

/-- From the facts about the numbers to the facts about the loop. -/
theorem trips_core {w : Nat} {σ : Type} {l : Loop w σ} {cs : IntConst} {n : Nat} (hw : 0 < w)
    (hl : l.leaveOnTrue = false) (hn : 0 < n)
    (hs : delta cs l ≠ 0) (hup : 0 < delta cs l ↔ upward l.rel)
    (h1 : ∀ k : Int, k < n → relNum l.rel (num l.signed l.init + k * delta cs l) (num l.signed l.bound))
    (h2 : ∀ k : Int, n ≤ k → ¬ relNum l.rel (num l.signed l.init + k * delta cs l) (num l.signed l.bound)) :
    (∀ k < n, l.stays (at_ l k) = true) ∧
      (Trips l n ↔ InRange l.signed w (num l.signed l.init + n * delta cs l)) := by
  have hi := num_inRange hw l.signed l.init
  have hb := num_inRange hw l.signed l.bound
  have hall : ∀ k < n, l.stays (at_ l k) = true := by
    intro k hk
    rw [stays_iff hl, at_eq cs l l.signed k, num_ofInt hw _ _ (inRange_before hi hb hup hs h1 hk)]
    exact h1 k (by omega)
  refine ⟨hall, ⟨fun ht => ?_, fun hr => ⟨hall, ?_⟩⟩⟩
  · apply Classical.byContradiction
    intro hout
    obtain ⟨m, rfl⟩ : ∃ m, n = m + 1 := ⟨n - 1, by omega⟩
    have e : num l.signed l.init + ((m + 1 : Nat) : Int) * delta cs l =
        (num l.signed l.init + (m : Int) * delta cs l) + delta cs l := by
      rw [show ((m + 1 : Nat) : Int) = m + 1 by omega, Int.add_mul, Int.one_mul]; omega
    have := wrap_stays (r := l.rel) (i := 0) hw hb hup hs (delta_small (c := cs) (l := l) hw)
      (inRange_before hi hb hup hs h1 (Nat.lt_succ_self m)) (h1 m (by omega)) (by rw [← e]; exact hout)
    rw [← e, ← at_eq cs l l.signed (m + 1), ← stays_iff hl] at this
    rw [ht.2] at this
    exact absurd this (by decide)
  · rw [← Bool.not_eq_true, stays_iff hl, at_eq cs l l.signed n, num_ofInt hw _ _ hr]
    exact h2 n (by omega)

end Verif.Unroll
