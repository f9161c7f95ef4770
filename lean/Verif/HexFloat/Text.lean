import Verif.HexFloat.Bits

/-! Printing and scanning of digits -/
set_option linter.unusedSimpArgs false
set_option linter.unusedVariables false
namespace Verif.HexFloat

theorem wrap_eq {W : Nat} {i : Int} (hW : 0 < W) (h1 : -2 ^ (W - 1) ≤ i) (h2 : i < 2 ^ (W - 1)) : wrap W i = i := by
  unfold wrap
  obtain ⟨k, rfl⟩ : ∃ k, W = k + 1 := ⟨W - 1, by omega⟩
  simp only [Nat.add_sub_cancel] at h1 h2
  have e : ((2 ^ (k + 1) : Nat) : Int) = 2 * 2 ^ k := by
    rw [Nat.pow_succ]; push_cast; omega
  apply Int.bmod_eq_of_le
  · rw [e]; omega
  · rw [e]; omega

/-! ### The printer's loops -/

theorem printLoop_spec (N : Nat) (hN : N ≤ 64) (j : Nat) : ∀ (fr : Nat) (x : Int),
    j < N → 2 ^ (N - 1 - j) ≤ fr → fr < 2 ^ (N - j) → -2 ^ 63 + j ≤ x → x < 2 ^ 62 →
    printLoop (1 <<< (N - 1)) fr x = some (fr * 2 ^ j, x - j) := by
  induction j with
  | zero =>
    intro fr x hj h1 h2 hx1 hx2
    rw [printLoop, and_bit]
    have : fr / 2 ^ (N - 1) = 1 := by
      have e : 2 ^ N = 2 ^ (N - 1) * 2 := by rw [← Nat.pow_succ]; congr 1; omega
      simp only [Nat.sub_zero] at h1 h2
      rw [e] at h2
      exact Nat.div_eq_of_lt_le (by omega) (by omega)
    rw [this]
    have := two_pow_pos (N - 1)
    rw [if_neg (by omega)]
    simp
  | succ j ih =>
    intro fr x hj h1 h2 hx1 hx2
    rw [printLoop, and_bit]
    have h3 : fr < 2 ^ (N - 1) := Nat.lt_of_lt_of_le h2 (Nat.pow_le_pow_right (by decide) (by omega))
    rw [Nat.div_eq_of_lt h3, if_pos (by simp)]
    have e1 : 2 ^ (N - j) = 2 * 2 ^ (N - (j + 1)) := by
      rw [← Nat.pow_succ']; congr 1; omega
    have e2 : 2 ^ (N - 1 - j) = 2 * 2 ^ (N - 1 - (j + 1)) := by
      rw [← Nat.pow_succ']; congr 1; omega
    have hlt : fr <<< 1 < 2 ^ 64 := by
      have : 2 ^ (N - j) ≤ 2 ^ 64 := Nat.pow_le_pow_right (by decide) (by omega)
      rw [Nat.shiftLeft_eq]; omega
    have hu : u 64 (fr <<< 1) = fr * 2 := by
      rw [u, Nat.mod_eq_of_lt hlt, Nat.shiftLeft_eq]
    have hw : wrap 64 (x - 1) = x - 1 := by
      apply wrap_eq (by decide) <;> omega
    rw [hu, hw, ih _ _ (by omega) (by omega) (by omega) (by omega) (by omega)]
    rw [Nat.pow_succ', ← Nat.mul_assoc]
    congr 2
    push_cast; omega

theorem trimLoop_spec (n : Nat) : ∀ fr, fr < 16 ^ n →
    (trimLoop n fr).1 ≤ n ∧ fr = (trimLoop n fr).2 * 16 ^ (n - (trimLoop n fr).1) ∧
      (trimLoop n fr).2 < 16 ^ (trimLoop n fr).1 := by
  induction n with
  | zero => intro fr h; simp [trimLoop] at h ⊢; omega
  | succ n ih =>
    intro fr h
    rw [trimLoop]
    have e : (0xF : Nat) = setBits 0 4 := rfl
    rw [e, and_mask]
    by_cases h0 : fr % 2 ^ 4 = 0
    · rw [if_pos h0, Nat.shiftRight_eq_div_pow]
      have : fr / 2 ^ 4 < 16 ^ n := by
        rw [Nat.div_lt_iff_lt_mul (by decide)]; rw [Nat.pow_succ] at h; omega
      obtain ⟨i1, i2, i3⟩ := ih _ this
      refine ⟨by omega, ?_, i3⟩
      have e : n + 1 - (trimLoop n (fr / 2 ^ 4)).1 = (n - (trimLoop n (fr / 2 ^ 4)).1) + 1 := by omega
      rw [e, Nat.pow_succ (n := 16), ← Nat.mul_assoc, ← i2]
      omega
    · rw [if_neg h0]
      simp [h]

/-! ### Digits -/

/-- The value of hexadecimal digits after those of `v`. -/
def hexVal (v : Nat) (ds : List Nat) : Nat := ds.foldl (fun a d => 16 * a + d) v

theorem hexPad_digits (n x : Nat) (hn : 0 < n) (hx : x < 16 ^ n) :
    ∃ ds : List Nat, ds.length = n ∧ (∀ d ∈ ds, d < 16) ∧ hexPad n x = ds.map Nat.digitChar ∧ hexVal 0 ds = x := by
  induction n generalizing x with
  | zero => omega
  | succ n ih =>
    by_cases hn0 : n = 0
    · subst hn0
      refine ⟨[x], rfl, by simpa using hx, ?_, by simp [hexVal]⟩
      rw [hexPad, Nat.toDigits_of_lt_base (by simpa using hx)]; simp
    · have hq : x / 16 < 16 ^ n := by
        rw [Nat.div_lt_iff_lt_mul (by decide)]; rwa [Nat.pow_succ] at hx
      obtain ⟨ds, d1, d2, d3, d4⟩ := ih (x / 16) (by omega) hq
      refine ⟨ds ++ [x % 16], by simp [d1], ?_, ?_, ?_⟩
      · intro d hd
        rcases List.mem_append.1 hd with h | h
        · exact d2 d h
        · simp at h; omega
      · rw [List.map_append, ← d3]
        simp only [hexPad, List.map_cons, List.map_nil]
        by_cases hlt : x < 16
        · rw [Nat.toDigits_of_lt_base hlt, show x / 16 = 0 by omega, show x % 16 = x by omega,
            Nat.toDigits_of_lt_base (by decide)]
          have e : n = (n - 1) + 1 := by omega
          rw [e]
          simp [List.replicate_succ', Nat.digitChar]
        · rw [Nat.toDigits_of_base_le (by decide) (by omega)]
          simp
      · simp only [hexVal, List.foldl_append, List.foldl_cons, List.foldl_nil] at d4 ⊢
        rw [d4]; omega

theorem digitChar_spec : ∀ d, d < 16 → isXDigit d.digitChar = true ∧ nibbleOf d.digitChar = d ∧
    d.digitChar ≠ '.' ∧ d.digitChar ≠ 'p' := by decide

theorem digitChar_dec : ∀ d : Nat, d < 10 → isDigit d.digitChar = true ∧ (d.digitChar.toNat : Int) - '0'.toNat = (d : Int) ∧
    d.digitChar ≠ '-' ∧ d.digitChar ≠ '+' := by decide

/-! ### The fraction -/

theorem setNthMsb_spec {W v i bit : Nat} (hb : bit < 2) (hi : i < W) (hv : v < 2 ^ i) :
    setNthMsb W (v * 2 ^ (W - i)) bit i = (2 * v + bit) * 2 ^ (W - i - 1) := by
  unfold setNthMsb
  have e : 2 ^ (W - i) = 2 * 2 ^ (W - i - 1) := by
    rw [← Nat.pow_succ']; congr 1; omega
  by_cases h0 : bit = 0
  · subst h0; simp [e, ← Nat.mul_assoc, Nat.mul_comm v 2]
  · have : bit = 1 := by omega
    subst this
    have hle : i ≤ W - 1 := by omega
    simp only [ne_eq, Nat.one_ne_zero, not_false_eq_true, decide_true, hle, Bool.and_self, if_true, u]
    have e2 : W - 1 - i = W - i - 1 := by omega
    rw [e2, Nat.one_shiftLeft, or_shl (by rw [e]; have := two_pow_pos (W - i - 1); omega), e, Nat.mod_eq_of_lt]
    · grind
    · have hW : 2 ^ W = 2 ^ i * (2 * 2 ^ (W - i - 1)) := by rw [← e, ← Nat.pow_add]; congr 1; omega
      rw [hW]
      have := two_pow_pos (W - i - 1)
      calc v * (2 * 2 ^ (W - i - 1)) + 2 ^ (W - i - 1) < v * (2 * 2 ^ (W - i - 1)) + 2 * 2 ^ (W - i - 1) := by omega
        _ = (v + 1) * (2 * 2 ^ (W - i - 1)) := by rw [Nat.add_mul, Nat.one_mul]
        _ ≤ 2 ^ i * (2 * 2 ^ (W - i - 1)) := Nat.mul_le_mul_right _ hv

/-- The left-aligned fraction holds the `i` bits of `v`. -/
structure Holds (W : Nat) (s : Mant) (v i : Nat) : Prop where
  index : s.index = i
  fraction : s.fraction = v * 2 ^ (W - i)
  lt : v < 2 ^ i

/-- The bit of a digit looked at. -/
def topBit (number : Nat) : Nat := if number &&& 8 ≠ 0 then 1 else 0

theorem topBit_lt (n : Nat) : topBit n < 2 := by unfold topBit; split <;> decide

theorem fracBit_spec {W number v i : Nat} {s : Mant} (h : Holds W s v i) (hi : i < W) :
    ∃ s', fracBit W true number s = some s' ∧ Holds W s' (2 * v + topBit number) (i + 1) ∧
      s'.exponent = s.exponent := by
  refine ⟨_, rfl, ⟨?_, ?_, ?_⟩, rfl⟩
  · simp only [h.index, incIdx]
    have : W < 2 ^ W := Nat.lt_two_pow_self
    rw [if_neg (by omega)]
  · show setNthMsb W s.fraction (topBit number) s.index = _
    rw [h.fraction, h.index, setNthMsb_spec (topBit_lt _) hi h.lt, Nat.sub_sub]
  · have := h.lt; have := topBit_lt number
    rw [Nat.pow_succ]; omega

theorem topBits : ∀ n, n < 16 →
    8 * topBit n + 4 * topBit (n <<< 1) + 2 * topBit (n <<< 2) + topBit (n <<< 3) = n := by decide

theorem fracNibble_spec {W number v i : Nat} {s : Mant} (h : Holds W s v i) (hi : i + 4 ≤ W) (hn : number < 16) :
    ∃ s', fracNibble W true number s = some s' ∧ Holds W s' (16 * v + number) (i + 4) ∧
      s'.exponent = s.exponent := by
  obtain ⟨s1, a1, b1, c1⟩ := fracBit_spec (number := number) h (by omega)
  obtain ⟨s2, a2, b2, c2⟩ := fracBit_spec (number := number <<< 1) b1 (by omega)
  obtain ⟨s3, a3, b3, c3⟩ := fracBit_spec (number := number <<< 2) b2 (by omega)
  obtain ⟨s4, a4, b4, c4⟩ := fracBit_spec (number := number <<< 3) b3 (by omega)
  refine ⟨s4, by simp [fracNibble, a1, a2, a3, a4], ?_, by omega⟩
  have := topBits number hn
  have e : 2 * (2 * (2 * (2 * v + topBit number) + topBit (number <<< 1)) + topBit (number <<< 2)) + topBit (number <<< 3)
      = 16 * v + number := by omega
  rw [e] at b4
  exact b4

theorem scanFrac_spec {W : Nat} (rest : List Char) : ∀ (ds : List Nat) (s : Mant) (v i : Nat),
    Holds W s v i → i + 4 * ds.length ≤ W → (∀ d ∈ ds, d < 16) →
    ∃ s', scanFrac W true (ds.map Nat.digitChar ++ 'p' :: rest) s = some (rest, s') ∧
      Holds W s' (hexVal v ds) (i + 4 * ds.length) ∧ s'.exponent = s.exponent := by
  intro ds
  induction ds with
  | nil => intro s v i h _ _; exact ⟨s, by simp [scanFrac], by simpa [hexVal] using h, rfl⟩
  | cons d ds ih =>
    intro s v i h hl hd
    simp only [List.length_cons] at hl
    obtain ⟨g1, g2, g3, g4⟩ := digitChar_spec d (hd d (by simp))
    obtain ⟨s1, a1, b1, c1⟩ := fracNibble_spec (number := d) h (by omega) (hd d (by simp))
    obtain ⟨s2, a2, b2, c2⟩ := ih s1 _ _ b1 (by omega) (fun d' h' => hd d' (by simp [h']))
    refine ⟨s2, ?_, ?_, by omega⟩
    · simp only [List.map_cons, List.cons_append, scanFrac, g4, if_false, g1, if_true, g2, a1, a2]
    · have e : i + 4 * (d :: ds).length = i + 4 + 4 * ds.length := by simp; omega
      rw [e]; exact b2

/-! ### The exponent -/

theorem scanExp_digits {W n : Nat} (hn : (n : Int) + 30 < 2 ^ (W - 1)) : ∀ (cs : List Char) (sign neg dg : Bool),
    scanExp W (Nat.toDigits 10 n ++ cs) sign neg dg 0 = scanExp W cs sign neg true n := by
  induction n using Nat.strongRecOn with
  | _ n ih =>
    intro cs sign neg dg
    have step : ∀ (w d : Nat) (dg : Bool), d < 10 → 10 * w + d = n →
        scanExp W (d.digitChar :: cs) sign neg dg w = scanExp W cs sign neg true n := by
      intro w d dg hd hw
      obtain ⟨g1, g2, g3, g4⟩ := digitChar_dec d hd
      rw [scanExp]
      simp only [g3, g4, decide_false, Bool.or_false, Bool.and_false, Bool.false_eq_true, if_false, g1, if_true]
      congr 1
      unfold expDigit expOverflow imax
      simp only [g2]
      rw [if_neg]
      · omega
      · generalize (2 ^ (W - 1) : Int) = P at *
        omega
    by_cases h : n < 10
    · rw [Nat.toDigits_of_lt_base h]
      exact step 0 n dg h (by omega)
    · rw [Nat.toDigits_of_base_le (by decide) (by omega), List.append_assoc, List.singleton_append,
        ih (n / 10) (by omega) (by omega)]
      exact step (n / 10) (n % 10) true (by omega) (by omega)

/-- What may follow a printed number: anything but a digit. -/
def Ends (cs : List Char) : Prop := ∀ c rest, cs = c :: rest → isDigit c = false

theorem scanExp_ends {W : Nat} {cs : List Char} (h : Ends cs) (sign neg : Bool) (w : Int) :
    scanExp W cs sign neg true w = some (cs, neg, true, w) := by
  cases cs with
  | nil => rfl
  | cons c cs => simp [scanExp, h c cs rfl]

/-- Reading back a printed exponent. -/
theorem scanExp_decInt {W : Nat} {x : Int} {cs : List Char} (h : Ends cs) (hx : (x.natAbs : Int) + 30 < 2 ^ (W - 1)) :
    ∃ w : Int, scanExp W ((if x ≥ 0 then ['+'] else []) ++ decInt x ++ cs) false false false 0 =
        some (cs, decide (x < 0), true, w) ∧ (if decide (x < 0) = true then -w else w) = x := by
  by_cases hneg : x < 0
  · refine ⟨((-x).toNat : Int), ?_, by simp [hneg]; omega⟩
    have e : ¬ x ≥ 0 := by omega
    simp only [e, if_false, List.nil_append, decInt, hneg, if_true, List.cons_append]
    rw [scanExp]
    simp only [Bool.not_false, decide_true, Bool.true_or, Bool.and_self, if_true, Bool.false_eq_true, if_false]
    rw [scanExp_digits (by omega), scanExp_ends h]
  · refine ⟨(x.toNat : Int), ?_, by simp [hneg]; omega⟩
    have e : x ≥ 0 := by omega
    simp only [e, if_true, decInt, hneg, if_false, List.cons_append, List.nil_append]
    rw [scanExp]
    simp only [Bool.not_false, decide_true, Bool.or_true, Bool.and_self, if_true, Bool.false_eq_true, if_false]
    rw [show (decide ('+' = '-')) = false by decide]
    rw [scanExp_digits (by omega), scanExp_ends h]
    simp

end Verif.HexFloat
