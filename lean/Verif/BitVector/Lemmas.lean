import Verif.BitVector.Model
import Verif.BitUtils.Lemmas

set_option linter.unusedSimpArgs false
set_option linter.unusedVariables false

namespace Verif.BitVector
open Verif.BitUtils

/-- Bit `i` of the vector as a whole (independent reading: word `i/64`, bit `i%64`,
zero beyond the end). -/
def bit (b : Bits) (i : Nat) : Bool := (b.getD (i / 64) 0).getLsbD (i % 64)

theorem get_eq_bit (b : Bits) (i : BitVec 32) : get b i = bit b i.toNat := by
  unfold get bit ithBit
  by_cases h : i.toNat / 64 ≥ b.length
  · simp [h, List.getD_eq_getElem?_getD, List.getElem?_eq_none h]
  · simp only [h, if_false]
    exact and_one_shl_ne_zero _ _ (Nat.mod_lt _ (by omega))

theorem bit_grow (b : Bits) (n j : Nat) : bit (grow b n) j = bit b j := by
  unfold bit grow
  congr 1
  simp only [List.getD_eq_getElem?_getD, List.getElem?_append]
  split
  · rfl
  · rename_i h
    rw [List.getElem?_eq_none (by omega : b.length ≤ j / 64), List.getElem?_replicate]
    split <;> simp

theorem bit_set_word (b : Bits) (e : Nat) (v : BitVec 64) (j : Nat) (he : e < b.length) :
    bit (b.set e v) j = if j / 64 = e then v.getLsbD (j % 64) else bit b j := by
  unfold bit
  simp only [List.getD_eq_getElem?_getD, List.getElem?_set]
  by_cases h : e = j / 64
  · subst h; simp [he]
  · have : ¬ j / 64 = e := fun x => h x.symm
    simp [h, this]

theorem ithBit_getLsbD (i : BitVec 32) (k : Nat) (hk : k < 64) :
    (ithBit i).getLsbD k = decide (k = i.toNat % 64) := by
  unfold ithBit
  rw [one_shl_getLsbD]; simp [hk]

theorem set_spec (b : Bits) (i : BitVec 32) :
    (∀ j, bit (set b i).1 j = (bit b j || decide (j = i.toNat))) ∧
      (set b i).2 = bit b i.toNat := by
  unfold set
  simp only
  -- the grown vector
  generalize hb' : (if i.toNat / 64 ≥ b.length then grow b (i.toNat / 64 + 1) else b) = b'
  have hbit : ∀ j, bit b' j = bit b j := by
    intro j; subst hb'; split
    · exact bit_grow _ _ _
    · rfl
  have hlen : i.toNat / 64 < b'.length := by
    subst hb'; split
    · unfold grow; simp; omega
    · omega
  have hne := and_one_shl_ne_zero (b'.getD (i.toNat / 64) 0) (i.toNat % 64) (Nat.mod_lt _ (by omega))
  have hbi : (b'.getD (i.toNat / 64) 0).getLsbD (i.toNat % 64) = bit b i.toNat := by
    rw [← hbit]; rfl
  rw [hbi] at hne
  by_cases h : bit b i.toNat = true
  · have h' : (b'.getD (i.toNat / 64) 0 &&& ithBit i) ≠ 0 := by
      rw [h] at hne; simpa [ithBit] using hne
    rw [if_pos h']
    refine ⟨?_, h.symm⟩
    intro j
    rw [hbit]
    by_cases hj : j = i.toNat
    · subst hj; simp [h]
    · simp [hj]
  · have h0 : bit b i.toNat = false := by simpa using h
    have h' : ¬ (b'.getD (i.toNat / 64) 0 &&& ithBit i) ≠ 0 := by
      rw [h0] at hne; simpa [ithBit] using hne
    rw [if_neg h']
    refine ⟨?_, h0.symm⟩
    intro j
    rw [bit_set_word _ _ _ _ hlen]
    by_cases hj : j / 64 = i.toNat / 64
    · rw [if_pos hj, BitVec.getLsbD_or, ithBit_getLsbD _ _ (Nat.mod_lt _ (by omega))]
      have : (b'.getD (i.toNat / 64) 0).getLsbD (j % 64) = bit b j := by
        rw [← hbit]; unfold bit; rw [hj]
      rw [this]
      congr 1
      simp only [decide_eq_decide]
      omega
    · rw [if_neg hj, hbit]
      have : j ≠ i.toNat := fun e => hj (by rw [e])
      simp [this]

theorem clear_spec (b : Bits) (i : BitVec 32) :
    (∀ j, bit (clear b i).1 j = (bit b j && decide (j ≠ i.toNat))) ∧
      (clear b i).2 = bit b i.toNat := by
  unfold clear
  simp only
  by_cases hl : i.toNat / 64 ≥ b.length
  · rw [if_pos hl]
    have h0 : bit b i.toNat = false := by
      unfold bit; simp [List.getD_eq_getElem?_getD, List.getElem?_eq_none hl]
    refine ⟨?_, h0.symm⟩
    intro j
    by_cases hj : j = i.toNat
    · subst hj; simp [h0]
    · simp [hj]
  · rw [if_neg hl]
    have hne := and_one_shl_ne_zero (b.getD (i.toNat / 64) 0) (i.toNat % 64) (Nat.mod_lt _ (by omega))
    have hbi : (b.getD (i.toNat / 64) 0).getLsbD (i.toNat % 64) = bit b i.toNat := rfl
    rw [hbi] at hne
    by_cases h : bit b i.toNat = true
    · have h' : ¬ (b.getD (i.toNat / 64) 0 &&& ithBit i) = 0 := by
        rw [h] at hne; simpa [ithBit] using hne
      rw [if_neg h']
      refine ⟨?_, h.symm⟩
      intro j
      rw [bit_set_word _ _ _ _ (by omega)]
      by_cases hj : j / 64 = i.toNat / 64
      · have hm : j % 64 < 64 := Nat.mod_lt _ (by omega)
        rw [if_pos hj, BitVec.getLsbD_and, BitVec.getLsbD_not, ithBit_getLsbD _ _ hm]
        have : (b.getD (i.toNat / 64) 0).getLsbD (j % 64) = bit b j := by
          unfold bit; rw [hj]
        rw [this]
        congr 1
        simp only [hm, decide_true, Bool.true_and, ← decide_not, decide_eq_decide]
        omega
      · rw [if_neg hj]
        have : j ≠ i.toNat := fun e => hj (by rw [e])
        simp [this]
    · have h0 : bit b i.toNat = false := by simpa using h
      have h' : (b.getD (i.toNat / 64) 0 &&& ithBit i) = 0 := by
        rw [h0] at hne; simpa [ithBit] using hne
      rw [if_pos h']
      refine ⟨?_, h0.symm⟩
      intro j
      by_cases hj : j = i.toNat
      · subst hj; simp [h0]
      · simp [hj]

theorem bit_cons (w : BitVec 64) (b : Bits) (j : Nat) :
    bit (w :: b) j = if j < 64 then w.getLsbD j else bit b (j - 64) := by
  unfold bit
  by_cases h : j < 64
  · have h1 : j / 64 = 0 := by omega
    have h2 : j % 64 = j := by omega
    simp [h, h1, h2]
  · have h1 : j / 64 = (j - 64) / 64 + 1 := by omega
    have h2 : j % 64 = (j - 64) % 64 := by omega
    rw [h1, h2]; simp [h]

theorem bit_nil (j : Nat) : bit [] j = false := by simp [bit]

theorem or_bits (a b : Bits) : ∀ j, bit (or a b).1 j = (bit a j || bit b j) := by
  fun_induction or a b with
  | case1 => intro j; simp [bit_nil]
  | case2 => intro j; simp [bit_nil]
  | case3 => intro j; simp [bit_nil]
  | case4 t ts o os temp r hne ih =>
    intro j
    simp only [bit_cons]
    split
    · simp [temp]
    · exact ih _
  | case5 t ts o os temp r hne ih =>
    intro j
    simp only [bit_cons]
    split
    · have : t ||| o = t := by simpa [temp] using hne
      rw [← BitVec.getLsbD_or, this]
    · exact ih _

theorem word_eq_of_bits (x y : BitVec 64) (h : ∀ k, k < 64 → x.getLsbD k = y.getLsbD k) : x = y :=
  BitVec.eq_of_getLsbD_eq h

/-- If `Or` says "unchanged", the vector is unchanged. -/
theorem or_false (a b : Bits) (h : (or a b).2 = false) : (or a b).1 = a := by
  fun_induction or a b with
  | case1 => rfl
  | case2 => simp at h
  | case3 => rfl
  | case4 => simp at h
  | case5 t ts o os temp r hne ih => simp at h ⊢; exact ih h

/-- If `Or` says "changed" and no growth was needed, some bit changed. -/
theorem or_true (a b : Bits) (hl : b.length ≤ a.length) (h : (or a b).2 = true) :
    ∃ j, bit b j = true ∧ bit a j = false := by
  fun_induction or a b with
  | case1 => simp at h
  | case2 => simp at hl
  | case3 => simp at h
  | case4 t ts o os temp r hne ih =>
    have : ¬ ∀ k, k < 64 → (t ||| o).getLsbD k = t.getLsbD k := fun hh =>
      hne (word_eq_of_bits _ _ hh)
    simp only [Classical.not_forall] at this
    obtain ⟨k, hk, hne⟩ := this
    refine ⟨k, ?_⟩
    rw [bit_cons, bit_cons, if_pos hk, if_pos hk]
    rw [BitVec.getLsbD_or] at hne
    revert hne
    cases t.getLsbD k <;> cases o.getLsbD k <;> simp
  | case5 t ts o os temp r hne ih =>
    obtain ⟨j, h1, h2⟩ := ih (by simpa using hl) h
    refine ⟨j + 64, ?_⟩
    rw [bit_cons, bit_cons, if_neg (by omega), if_neg (by omega)]
    simpa using ⟨h1, h2⟩

theorem empty_iff (b : Bits) : empty b = true ↔ ∀ j, bit b j = false := by
  induction b with
  | nil => simp [empty, bit_nil]
  | cons w b ih =>
    rw [empty]
    split
    · rename_i h
      simp only [Bool.false_eq_true, false_iff, Classical.not_forall]
      apply Classical.byContradiction
      intro hc
      apply h
      apply word_eq_of_bits
      intro k hk
      have : bit (w :: b) k = false := by
        apply Classical.byContradiction; intro hx; exact hc ⟨k, hx⟩
      rw [bit_cons, if_pos hk] at this
      simp [this]
    · rename_i h
      have hw : w = 0 := by simpa using h
      subst hw
      rw [ih]
      constructor
      · intro hh j; rw [bit_cons]; split
        · simp
        · exact hh _
      · intro hh j
        have := hh (j + 64)
        rw [bit_cons, if_neg (by omega)] at this
        simpa using this

theorem eqLoop_iff (a b : Bits) : ∀ n i, eqLoop a b n i = true ↔
    ∀ k, i ≤ k → k < i + n → a.getD k 0 = b.getD k 0 := by
  intro n
  induction n with
  | zero => intro i; simp [eqLoop]; intro k h1 h2; omega
  | succ n ih =>
    intro i
    rw [eqLoop]
    split
    · rename_i h
      simp only [Bool.false_eq_true, false_iff]
      intro hc
      exact h (hc i (by omega) (by omega))
    · rename_i h
      have h : a.getD i 0 = b.getD i 0 := by simpa using h
      rw [ih]
      constructor
      · intro hh k h1 h2
        by_cases hk : k = i
        · rw [hk, h]
        · exact hh k (by omega) (by omega)
      · intro hh k h1 h2
        exact hh k (by omega) (by omega)

theorem beq_iff (a b : Bits) : beq a b = true ↔ ∀ j, bit a j = bit b j := by
  unfold beq
  rw [eqLoop_iff]
  constructor
  · intro h j
    unfold bit
    by_cases hj : j / 64 < max a.length b.length
    · rw [h (j / 64) (by omega) (by omega)]
    · have h1 : a.length ≤ j / 64 := by omega
      have h2 : b.length ≤ j / 64 := by omega
      simp [List.getD_eq_getElem?_getD, List.getElem?_eq_none, h1, h2]
  · intro h k _ _
    apply word_eq_of_bits
    intro i hi
    have := h (64 * k + i)
    unfold bit at this
    have e1 : (64 * k + i) / 64 = k := by omega
    have e2 : (64 * k + i) % 64 = i := by omega
    rwa [e1, e2] at this

end Verif.BitVector
