import Verif.HexFloat.Text

/-! Reading back what was printed -/
set_option linter.unusedSimpArgs false
set_option linter.unusedVariables false
namespace Verif.HexFloat

/-- The text of a number. -/
def txt (F : Fmt) (s : Nat) (d : Char) (fr : Nat) (x : Int) : List Char :=
  (if s ≠ 0 then ['-'] else []) ++ ['0', 'x'] ++ [d] ++
    (if (trimLoop F.nibbles fr).1 ≠ 0 then '.' :: hexPad (trimLoop F.nibbles fr).1 (trimLoop F.nibbles fr).2 else []) ++
    ['p'] ++ (if x ≥ 0 then ['+'] else []) ++ decInt x

section
variable {F : Fmt} (hF : F.Full)
include hF

theorem nib_sum : F.f + F.overflowBits = F.nibbles * 4 := by
  unfold Fmt.overflowBits Fmt.nibbles; omega

theorem sixteen_pow (n : Nat) : 16 ^ n = 2 ^ (n * 4) := by
  rw [Nat.mul_comm, Nat.pow_mul]

theorem two_e_lt : (2 : Int) ^ F.e + F.f + 40 < 2 ^ (F.W - 1) := by
  have := hF.room
  have h : ((F.f + 2 ^ F.e + 40 : Nat) : Int) < ((2 ^ (F.W - 1) : Nat) : Int) := by exact_mod_cast this
  push_cast at h; omega

theorem int_bias : (F.bias : Int) < 2 ^ F.e := by
  have := hF.bias
  exact_mod_cast this

theorem pow_W_le : (2 : Int) ^ (F.W - 1) ≤ 2 ^ 63 := by
  have : 2 ^ (F.W - 1) ≤ 2 ^ 63 := Nat.pow_le_pow_right (by decide) (by have := hF.small; omega)
  exact_mod_cast this

theorem pow_e_le : (2 : Int) ^ F.e ≤ 2 ^ 62 := by
  have : 2 ^ F.e ≤ 2 ^ 62 := Nat.pow_le_pow_right (by decide) (by have := hF.small; have := hF.sum; have := hF.fits; have := hF.f_pos; omega)
  exact_mod_cast this

/-! ### The text printed -/

theorem shl_frac {m : Nat} (hm : m < 2 ^ F.f) : u 64 (m <<< F.overflowBits) = m * 2 ^ F.overflowBits ∧
    m * 2 ^ F.overflowBits < 2 ^ (F.nibbles * 4) := by
  have h1 : m * 2 ^ F.overflowBits < 2 ^ (F.nibbles * 4) := by
    rw [← nib_sum hF, Nat.pow_add]
    exact Nat.mul_lt_mul_of_pos_right hm (two_pow_pos _)
  have h2 : 2 ^ (F.nibbles * 4) ≤ 2 ^ 64 := Nat.pow_le_pow_right (by decide) (by have := hF.nib; have := hF.small; omega)
  rw [u, Nat.shiftLeft_eq, Nat.mod_eq_of_lt (by omega)]
  exact ⟨rfl, h1⟩

theorem print_zero {s : Nat} (hs : s < 2) : print F (F.enc s 0 0) = some (txt F s '0' 0 0) := by
  have hx : 0 < 2 ^ F.e := two_pow_pos _
  have hm : 0 < 2 ^ F.f := two_pow_pos _
  have h0 : u 64 0 = 0 := rfl
  unfold print
  simp only [hF.enc_and_sign hs hx hm, enc_and_exp hs hx hm, hF.zero, Fmt.fracMask, and_mask, enc_mod hs hx hm,
    Nat.zero_mul, Nat.zero_shiftRight, Nat.zero_shiftLeft, h0]
  have : (s * 2 ^ (F.e + F.f) ≠ 0) ↔ s ≠ 0 := by
    have := two_pow_pos (F.e + F.f)
    simp only [ne_eq, Nat.mul_eq_zero]; omega
  simp [txt, this]

theorem print_normal {s x m : Nat} (hs : s < 2) (hx : x < 2 ^ F.e) (hm : m < 2 ^ F.f) (h1 : 0 < x) :
    print F (F.enc s x m) = some (txt F s '1' (m * 2 ^ F.overflowBits) ((x : Int) - F.bias)) := by
  have hw : wrap 64 ((x : Int) - F.bias) = (x : Int) - F.bias := by
    have := int_bias hF; have := pow_e_le hF
    have : (x : Int) < 2 ^ F.e := by exact_mod_cast hx
    apply wrap_eq (by decide) <;> omega
  unfold print
  simp only [hF.enc_and_sign hs hx hm, enc_and_exp hs hx hm, hF.zero, Fmt.fracMask, and_mask, enc_mod hs hx hm,
    Nat.shiftRight_eq_div_pow, Nat.mul_div_cancel _ (two_pow_pos F.f), (shl_frac hF hm).1]
  have h2 : (x == 0) = false := by simp; omega
  have : (s * 2 ^ (F.e + F.f) ≠ 0) ↔ s ≠ 0 := by
    have := two_pow_pos (F.e + F.f)
    simp only [ne_eq, Nat.mul_eq_zero]; omega
  simp [h2, hw, txt, this]

/-- The normalized fraction of a subnormal number. -/
theorem denorm_frac {m k : Nat} (hk : k < F.f) (h1 : 2 ^ (F.f - 1 - k) ≤ m) (h2 : m < 2 ^ (F.f - k)) :
    2 ^ F.f ≤ m * 2 ^ (k + 1) ∧ m * 2 ^ (k + 1) < 2 * 2 ^ F.f := by
  have e1 : 2 ^ F.f = 2 ^ (F.f - 1 - k) * 2 ^ (k + 1) := by rw [← Nat.pow_add]; congr 1; omega
  have e2 : 2 * 2 ^ F.f = 2 ^ (F.f - k) * 2 ^ (k + 1) := by rw [← Nat.pow_succ', ← Nat.pow_add]; congr 1; omega
  constructor
  · rw [e1]; exact Nat.mul_le_mul_right _ h1
  · rw [e2]; exact Nat.mul_lt_mul_of_pos_right h2 (two_pow_pos _)

theorem exists_lead {f m : Nat} (h0 : 0 < m) (hm : m < 2 ^ f) :
    ∃ k, k < f ∧ 2 ^ (f - 1 - k) ≤ m ∧ m < 2 ^ (f - k) := by
  refine ⟨f - 1 - m.log2, ?_, ?_, ?_⟩
  · have := (Nat.log2_lt (by omega)).2 hm; omega
  · have := (Nat.log2_lt (by omega)).2 hm
    have e : f - 1 - (f - 1 - m.log2) = m.log2 := by omega
    rw [e]; exact Nat.log2_self_le (by omega)
  · have := (Nat.log2_lt (by omega)).2 hm
    have e : f - (f - 1 - m.log2) = m.log2 + 1 := by omega
    rw [e]; exact Nat.lt_log2_self

theorem print_denorm {s m k : Nat} (hs : s < 2) (hm : m < 2 ^ F.f) (hk : k < F.f) (h1 : 2 ^ (F.f - 1 - k) ≤ m)
    (h2 : m < 2 ^ (F.f - k)) :
    print F (F.enc s 0 m) =
      some (txt F s '1' ((m * 2 ^ (k + 1) - 2 ^ F.f) * 2 ^ F.overflowBits) (-(F.bias : Int) - k)) := by
  have hx : 0 < 2 ^ F.e := two_pow_pos _
  have hpos : 0 < m := Nat.lt_of_lt_of_le (two_pow_pos _) h1
  have hbe := int_bias hF
  have hpe := pow_e_le hF
  have hf64 : F.f < 64 := by have := hF.small; have := hF.sum; have := hF.used; omega
  have hw : wrap 64 ((0 : Nat) - (F.bias : Int)) = -(F.bias : Int) := by
    rw [wrap_eq (by decide)] <;> omega
  unfold print
  simp only [hF.enc_and_sign hs hx hm, enc_and_exp hs hx hm, hF.zero, Fmt.fracMask, and_mask, enc_mod hs hx hm,
    Nat.zero_mul, Nat.zero_shiftRight, (shl_frac hF hm).1]
  have h3 : (m * 2 ^ F.overflowBits == 0) = false := by
    have := two_pow_pos F.overflowBits
    simp only [beq_eq_false_iff_ne, ne_eq, Nat.mul_eq_zero]; omega
  have hs0 : (s * 2 ^ (F.e + F.f) ≠ 0) ↔ s ≠ 0 := by
    have := two_pow_pos (F.e + F.f)
    simp only [ne_eq, Nat.mul_eq_zero]; omega
  have hN := nib_sum hF
  have hnib := hF.nib; have hsm := hF.small
  have hloop : printLoop (1 <<< (F.f + F.overflowBits - 1)) (m * 2 ^ F.overflowBits) (-(F.bias : Int))
      = some (m * 2 ^ F.overflowBits * 2 ^ k, -(F.bias : Int) - k) := by
    apply printLoop_spec (F.f + F.overflowBits) (by omega) k
    · omega
    · have e : F.f + F.overflowBits - 1 - k = (F.f - 1 - k) + F.overflowBits := by omega
      rw [e, Nat.pow_add]; exact Nat.mul_le_mul_right _ h1
    · have e : F.f + F.overflowBits - k = (F.f - k) + F.overflowBits := by omega
      rw [e, Nat.pow_add]; exact Nat.mul_lt_mul_of_pos_right h2 (two_pow_pos _)
    · omega
    · omega
  obtain ⟨d1, d2⟩ := denorm_frac hF hk h1 h2
  have hfr : u 64 ((m * 2 ^ F.overflowBits * 2 ^ k) <<< 1) &&& F.representMask
      = (m * 2 ^ (k + 1) - 2 ^ F.f) * 2 ^ F.overflowBits := by
    rw [Fmt.representMask, and_mask, u, Nat.mod_mod_of_dvd _ (Nat.pow_dvd_pow 2 (by omega)), Nat.shiftLeft_eq]
    have e : m * 2 ^ F.overflowBits * 2 ^ k * 2 ^ 1 = (m * 2 ^ (k + 1)) * 2 ^ F.overflowBits := by
      rw [Nat.pow_succ]; grind
    rw [e, Nat.pow_add 2 F.f, Nat.mul_mod_mul_right]
    congr 1
    have : m * 2 ^ (k + 1) = (m * 2 ^ (k + 1) - 2 ^ F.f) + 2 ^ F.f := by omega
    rw [this, Nat.add_mod_right, Nat.mod_eq_of_lt (by omega)]
    omega
  have hfp := hF.f_pos
  simp only [Bool.true_and, h3, Bool.and_false, Bool.not_false, Bool.and_true, hw, Bool.false_eq_true, if_false,
    hloop, gt_iff_lt, hfp, decide_true, BEq.rfl, if_true, Option.bind_eq_bind, Option.bind_some, hfr, hs0, txt]
  rfl

/-! ### Reading it -/

theorem trim_frac {q : Nat} (hq : q < 2 ^ F.f) :
    (trimLoop F.nibbles (q * 2 ^ F.overflowBits)).1 ≤ F.nibbles ∧
    q * 2 ^ F.overflowBits = (trimLoop F.nibbles (q * 2 ^ F.overflowBits)).2 *
      16 ^ (F.nibbles - (trimLoop F.nibbles (q * 2 ^ F.overflowBits)).1) ∧
    (trimLoop F.nibbles (q * 2 ^ F.overflowBits)).2 < 16 ^ (trimLoop F.nibbles (q * 2 ^ F.overflowBits)).1 := by
  apply trimLoop_spec
  rw [sixteen_pow hF]
  exact (shl_frac hF hq).2

theorem addExp_eq {x : Int} (h1 : -(F.bias : Int) - F.f ≤ x) (h2 : x ≤ 2 ^ F.e - F.bias) :
    addExp F.W x F.bias = x + F.bias := by
  have := int_bias hF; have := two_e_lt hF
  unfold addExp expOverflow imax
  generalize (2 : Int) ^ (F.W - 1) = P at *
  generalize (2 : Int) ^ F.e = Q at *
  by_cases h : x ≥ 0
  · rw [if_pos ⟨h, by omega⟩, if_pos (by omega)]
  · rw [if_neg (by omega), if_neg (by omega)]

theorem finish_txt {x : Int} {cs : List Char} (hcs : Ends cs) {neg : Bool} {s : Mant} (hs : s.exponent = F.bias)
    (h1 : -(F.bias : Int) - F.f ≤ x) (h2 : x ≤ 2 ^ F.e - F.bias) :
    finish F neg true s ((if x ≥ 0 then ['+'] else []) ++ decInt x ++ cs) =
      .ok (assemble F neg false s.fraction (x + F.bias)) cs := by
  have := int_bias hF; have := two_e_lt hF
  obtain ⟨w, g1, g2⟩ := scanExp_decInt (W := F.W) (x := x) hcs (by
    generalize (2 : Int) ^ (F.W - 1) = P at *
    generalize (2 : Int) ^ F.e = Q at *
    omega)
  unfold finish
  rw [g1]
  simp only [Bool.not_true, Bool.false_eq_true, if_false, Bool.false_and, g2, hs, addExp_eq hF h1 h2]

theorem parse_txt {q s : Nat} {x : Int} {cs : List Char} (hcs : Ends cs) (hq : q < 2 ^ F.f)
    (h1 : -(F.bias : Int) - F.f ≤ x) (h2 : x ≤ 2 ^ F.e - F.bias) :
    parse F (txt F s '1' (q * 2 ^ F.overflowBits) x ++ cs) =
      .ok (assemble F (decide (s ≠ 0)) false (q * 2 ^ (F.W - F.f)) (x + F.bias)) cs := by
  have hbody : ∀ neg, parseHex F neg (['1'] ++
      (if (trimLoop F.nibbles (q * 2 ^ F.overflowBits)).1 ≠ 0 then
        '.' :: hexPad (trimLoop F.nibbles (q * 2 ^ F.overflowBits)).1 (trimLoop F.nibbles (q * 2 ^ F.overflowBits)).2
        else []) ++
      ['p'] ++ ((if x ≥ 0 then ['+'] else []) ++ decInt x ++ cs)) =
      .ok (assemble F neg false (q * 2 ^ (F.W - F.f)) (x + F.bias)) cs := by
    intro neg
    obtain ⟨t1, t2, t3⟩ := trim_frac hF hq
    generalize trimLoop F.nibbles (q * 2 ^ F.overflowBits) = t at *
    obtain ⟨n, fr⟩ := t
    simp only at t1 t2 t3 ⊢
    have hn : intNibble F.W 1 ⟨0, 0, F.bias, false⟩ = some ⟨0, 0, F.bias, true⟩ := rfl
    have hx1 : isXDigit '1' = true := by decide
    have hn1 : nibbleOf '1' = 1 := by decide
    unfold parseHex
    have hdrop : ∀ l : List Char, (['1'] ++ l).dropWhile (· == '0') = '1' :: l := by
      intro l; simp [List.dropWhile]
    simp only [List.append_assoc, hdrop]
    by_cases h0 : n = 0
    · subst h0
      simp only [ne_eq, not_true_eq_false, if_false, List.nil_append]
      have hq0 : q = 0 := by
        simp at t3
        subst t3
        simp only [Nat.zero_mul, Nat.mul_eq_zero] at t2
        have := two_pow_pos F.overflowBits
        omega
      subst hq0
      rw [scanInt]
      simp only [show ¬('1' = '.') by decide, show ¬('1' = 'p') by decide, if_false, hx1, if_true, hn1, hn, List.singleton_append]
      rw [scanInt]
      simp only [show ¬('p' = '.') by decide, if_false, if_true, Bool.false_eq_true]
      have := finish_txt hF (s := ⟨0, 0, F.bias, true⟩) (neg := neg) hcs rfl h1 h2
      simp only [List.append_assoc] at this
      rw [this]; simp
    · obtain ⟨ds, d1, d2, d3, d4⟩ := hexPad_digits n fr (by omega) t3
      simp only [ne_eq, h0, not_false_eq_true, if_true, d3]
      rw [scanInt]
      simp only [show ¬('1' = '.') by decide, show ¬('1' = 'p') by decide, if_false, hx1, if_true, hn1, hn, List.cons_append]
      rw [scanInt]
      simp only [if_true]
      have hholds : Holds F.W ⟨0, 0, F.bias, false⟩ 0 0 := ⟨rfl, by simp, by simp⟩
      have hnib := hF.nib
      obtain ⟨s', a1, a2, a3⟩ := scanFrac_spec ((if x ≥ 0 then ['+'] else []) ++ (decInt x ++ cs)) ds _ _ _ hholds
        (by omega) d2
      simp only [List.singleton_append, List.nil_append] at *
      rw [a1]
      simp only
      have := finish_txt hF (s := s') (neg := neg) hcs (by rw [a3]) h1 h2
      simp only [List.append_assoc] at this
      rw [this]
      congr 2
      rw [a2.fraction, d4]
      have hN := nib_sum hF; have husd := hF.used; have hsum := hF.sum
      rw [sixteen_pow hF] at t2
      have e1 : 2 ^ (F.W - (0 + 4 * ds.length)) = 2 ^ ((F.nibbles - n) * 4) * 2 ^ (F.W - F.nibbles * 4) := by
        rw [← Nat.pow_add]; congr 1; omega
      have e2 : 2 ^ (F.W - F.f) = 2 ^ F.overflowBits * 2 ^ (F.W - F.nibbles * 4) := by
        rw [← Nat.pow_add]; congr 1; omega
      rw [e1, e2, ← Nat.mul_assoc, ← t2, Nat.mul_assoc]
  unfold txt
  by_cases hs0 : s = 0
  · subst hs0
    simp only [ne_eq, not_true_eq_false, if_false, List.nil_append, decide_false]
    have := hbody false
    rw [← this]
    unfold parse
    simp [isSpace, List.dropWhile, parseUnsigned]
  · simp only [ne_eq, hs0, not_false_eq_true, if_true, decide_true]
    have := hbody true
    rw [← this]
    unfold parse
    simp [isSpace, List.dropWhile, parseUnsigned]

theorem parse_zero {s : Nat} {cs : List Char} (hcs : Ends cs) :
    parse F (txt F s '0' 0 0 ++ cs) = .ok (assemble F (decide (s ≠ 0)) true 0 0) cs := by
  have htrim : ∀ n, trimLoop n 0 = (0, 0) := by
    intro n; induction n with
    | zero => rfl
    | succ n ih => simp [trimLoop, ih]
  have := int_bias hF; have := two_e_lt hF
  obtain ⟨w, g1, g2⟩ := scanExp_decInt (W := F.W) (x := 0) hcs (by
    generalize (2 : Int) ^ (F.W - 1) = P at *
    generalize (2 : Int) ^ F.e = Q at *
    simp; omega)
  have hbody : ∀ neg, parseHex F neg ('0' :: 'p' :: ((if (0 : Int) ≥ 0 then ['+'] else []) ++ decInt 0 ++ cs)) =
      .ok (assemble F neg true 0 0) cs := by
    intro neg
    unfold parseHex
    have hdrop : ∀ l : List Char, ('0' :: 'p' :: l).dropWhile (· == '0') = 'p' :: l := by
      intro l; simp [List.dropWhile]
    rw [hdrop, scanInt]
    simp only [show ¬('p' = '.') by decide, if_false, if_true, Bool.false_eq_true]
    unfold finish
    rw [g1]
    simp
  unfold txt
  by_cases hs0 : s = 0
  · subst hs0
    have := hbody false
    simp only [ne_eq, not_true_eq_false, if_false, List.nil_append, decide_false, htrim]
    rw [← this]
    unfold parse
    simp [isSpace, List.dropWhile, parseUnsigned]
  · have := hbody true
    simp only [ne_eq, hs0, not_false_eq_true, not_true_eq_false, if_false, if_true, List.nil_append, decide_true, htrim]
    rw [← this]
    unfold parse
    simp [isSpace, List.dropWhile, parseUnsigned]

/-! ### Putting the bits together -/

theorem sign_bits (neg : Bool) : u F.W ((if neg then 1 else 0) <<< (F.used - 1)) = (if neg then 1 else 0) * 2 ^ (F.e + F.f) := by
  have h : F.used - 1 = F.e + F.f := by have := hF.used; have := hF.sum; omega
  rw [h, u, Nat.shiftLeft_eq, Nat.mod_eq_of_lt]
  rw [← hF.used, hF.sum, Nat.pow_succ]
  have := two_pow_pos (F.e + F.f)
  split <;> omega

theorem glue {s x m : Nat} (hs : s < 2) (hx : x < 2 ^ F.e) (hm : m < 2 ^ F.f) :
    s * 2 ^ (F.e + F.f) ||| m ||| (u F.W (x <<< F.f) &&& F.expMask) = F.enc s x m := by
  have h1 : x * 2 ^ F.f < 2 ^ (F.e + F.f) := by
    rw [Nat.pow_add]; exact Nat.mul_lt_mul_of_pos_right hx (two_pow_pos _)
  have h2 : u F.W (x <<< F.f) = x * 2 ^ F.f := by
    rw [u, Nat.shiftLeft_eq, Nat.mod_eq_of_lt]
    rw [← hF.used, hF.sum, Nat.pow_succ]; omega
  rw [h2, Fmt.expMask, and_setBits, Nat.mul_div_cancel _ (two_pow_pos _), Nat.mod_eq_of_lt hx, Nat.or_assoc,
    or_shl' hm, or_shl (enc_low_lt hs hx hm), Fmt.enc, Nat.add_assoc]

theorem frac_align {q : Nat} (hq : q < 2 ^ F.f) : (q * 2 ^ (F.W - F.f)) >>> (F.W - F.f) &&& F.fracMask = q := by
  rw [Nat.shiftRight_eq_div_pow, Nat.mul_div_cancel _ (two_pow_pos _), Fmt.fracMask, and_mask, Nat.mod_eq_of_lt hq]

theorem assemble_zero (neg : Bool) : assemble F neg true 0 0 = F.enc (if neg then 1 else 0) 0 0 := by
  have hx : 0 < 2 ^ F.e := two_pow_pos _
  have hm : 0 < 2 ^ F.f := two_pow_pos _
  unfold assemble
  simp only [Bool.not_true, Bool.and_false, Bool.false_eq_true, if_false, if_true, sign_bits hF,
    Nat.zero_shiftRight, Nat.zero_and, Int.lt_irrefl]
  have : ¬ ((0 : Int) > (setBits 0 F.e : Nat)) := by omega
  simp only [this, if_false, Int.toNat_zero]
  exact glue hF (by split <;> decide) hx hm

theorem assemble_normal {neg : Bool} {q x : Nat} (hq : q < 2 ^ F.f) (hx : x < 2 ^ F.e) (h0 : 0 < x) :
    assemble F neg false (q * 2 ^ (F.W - F.f)) x = F.enc (if neg then 1 else 0) x q := by
  unfold assemble
  have h1 : ¬ ((x : Int) ≤ 0) := by omega
  have h2 : ¬ ((x : Int) < 0) := by omega
  have h3 : ¬ ((x : Int) > (setBits 0 F.e : Nat)) := by simp [setBits]; omega
  have h4 : (-(x : Int)).toNat = 0 := by omega
  simp only [h1, decide_false, Bool.false_and, Bool.false_eq_true, if_false, frac_align hF hq, h2, h3, h4, denormLoop,
    sign_bits hF, Int.toNat_natCast]
  exact glue hF (by split <;> decide) hx hq

theorem denormLoop_spec {f m : Nat} (hm : m < 2 ^ f) (h0 : 0 < m) : ∀ k l, l < 2 ^ k → m * 2 ^ k + l < 2 ^ f →
    denormLoop (setBits 0 f) k (m * 2 ^ k + l) = m := by
  intro k
  induction k with
  | zero => intro l h1 h2; simp at h1; subst h1; simp [denormLoop]
  | succ k ih =>
    intro l h1 h2
    have e : (m * 2 ^ (k + 1) + l) >>> 1 = m * 2 ^ k + l / 2 := by
      rw [Nat.shiftRight_eq_div_pow, Nat.pow_succ, Nat.pow_one, ← Nat.mul_assoc]; omega
    have h3 : m * 2 ^ k + l / 2 < 2 ^ f := by
      rw [Nat.pow_succ, ← Nat.mul_assoc] at h2; omega
    have h4 : 0 < m * 2 ^ k := Nat.mul_pos h0 (two_pow_pos _)
    rw [denormLoop, e, and_mask, Nat.mod_eq_of_lt h3, if_neg (by omega)]
    exact ih _ (by rw [Nat.pow_succ] at h1; omega) h3

theorem assemble_denorm {neg : Bool} {m k : Nat} (hm : m < 2 ^ F.f) (hk : k < F.f) (h1 : 2 ^ (F.f - 1 - k) ≤ m)
    (h2 : m < 2 ^ (F.f - k)) :
    assemble F neg false ((m * 2 ^ (k + 1) - 2 ^ F.f) * 2 ^ (F.W - F.f)) (-(k : Int)) = F.enc (if neg then 1 else 0) 0 m := by
  obtain ⟨d1, d2⟩ := denorm_frac hF hk h1 h2
  have hx : 0 < 2 ^ F.e := two_pow_pos _
  have hpos : 0 < m := Nat.lt_of_lt_of_le (two_pow_pos _) h1
  have hsum := hF.sum; have husd := hF.used
  have hmk : m * 2 ^ k < 2 ^ F.f := by
    rw [Nat.pow_succ, ← Nat.mul_assoc] at d2; omega
  have hfr : ((m * 2 ^ (k + 1) - 2 ^ F.f) * 2 ^ (F.W - F.f)) >>> 1 ||| u F.W (1 <<< (F.used - 1)) = m * 2 ^ k * 2 ^ (F.W - F.f) := by
    have e0 : 2 ^ (F.W - F.f) = 2 * 2 ^ (F.W - F.f - 1) := by rw [← Nat.pow_succ']; congr 1; omega
    have eW : 2 ^ (F.e + F.f) = 2 ^ F.f * 2 ^ (F.W - F.f - 1) := by rw [← Nat.pow_add]; congr 1; omega
    have e1 : ((m * 2 ^ (k + 1) - 2 ^ F.f) * 2 ^ (F.W - F.f)) >>> 1 = (m * 2 ^ (k + 1) - 2 ^ F.f) * 2 ^ (F.W - F.f - 1) := by
      rw [Nat.shiftRight_eq_div_pow, e0, Nat.pow_one, Nat.mul_left_comm, Nat.mul_div_cancel_left _ (by decide)]
    have := sign_bits hF true
    simp only [if_true, Nat.one_mul] at this
    rw [e1, this]
    have hlt : (m * 2 ^ (k + 1) - 2 ^ F.f) * 2 ^ (F.W - F.f - 1) < 2 ^ (F.e + F.f) := by
      rw [eW]; exact Nat.mul_lt_mul_of_pos_right (by omega) (two_pow_pos _)
    have := or_shl' (a := 1) hlt
    rw [Nat.one_mul] at this
    rw [this, eW, ← Nat.add_mul, Nat.add_sub_cancel' d1, Nat.pow_succ, e0]
    grind
  unfold assemble
  have h3 : (-(k : Int)) ≤ 0 := by omega
  have h4 : (if -(k : Int) < 0 then (0 : Int) else -(k : Int)) = 0 := by split <;> omega
  have h5 : ¬ ((0 : Int) > (setBits 0 F.e : Nat)) := by omega
  have h6 : (- -(k : Int)).toNat = k := by omega
  simp only [h3, decide_true, Bool.not_false, Bool.and_true, if_true, hfr, frac_align hF hmk, Bool.false_eq_true,
    if_false, h4, h5, h6, sign_bits hF, Int.toNat_zero]
  have := denormLoop_spec hF hm hpos k 0 (two_pow_pos _) (by omega)
  simp only [Nat.add_zero] at this
  rw [Fmt.fracMask, this]
  exact glue hF (by split <;> decide) hx hm

/-- Every bit pattern is printed, and read back. -/
theorem round_trip {b : Nat} (hb : b < 2 ^ F.W) {cs : List Char} (hcs : Ends cs) :
    ∃ t, print F b = some t ∧ parse F (t ++ cs) = .ok b cs := by
  rw [← hF.used, hF.sum] at hb
  obtain ⟨s, x, m, hs, hx, hm, rfl⟩ := F.enc_surj hb
  have hsb : (if decide (s ≠ 0) = true then 1 else 0) = s := by
    by_cases h : s = 0 <;> simp [h] <;> omega
  by_cases hx0 : x = 0
  · subst hx0
    by_cases hm0 : m = 0
    · subst hm0
      exact ⟨_, print_zero hF hs, by rw [parse_zero hF hcs, assemble_zero hF, hsb]⟩
    · obtain ⟨k, k1, k2, k3⟩ := exists_lead hF (Nat.pos_of_ne_zero hm0) hm
      refine ⟨_, print_denorm hF hs hm k1 k2 k3, ?_⟩
      obtain ⟨d1, d2⟩ := denorm_frac hF k1 k2 k3
      have : (0 : Int) < 2 ^ F.e := by exact_mod_cast two_pow_pos F.e
      rw [parse_txt hF hcs (by omega) (by omega) (by omega)]
      have e : -(F.bias : Int) - k + F.bias = -(k : Int) := by omega
      rw [e, assemble_denorm hF hm k1 k2 k3, hsb]
  · refine ⟨_, print_normal hF hs hx hm (Nat.pos_of_ne_zero hx0), ?_⟩
    have : (x : Int) < 2 ^ F.e := by exact_mod_cast hx
    rw [parse_txt hF hcs hm (by omega) (by omega)]
    have e : (x : Int) - F.bias + F.bias = x := by omega
    rw [e, assemble_normal hF hm hx (Nat.pos_of_ne_zero hx0), hsb]

end

end Verif.HexFloat
