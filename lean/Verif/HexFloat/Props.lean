import Verif.HexFloat.Edge

/-!
# Hexadecimal floating-point text and conversion between formats (C10, C11)
-/
set_option linter.unusedVariables false
namespace Verif.HexFloat

/-- The formats with a sign, an exponent and a fraction (all but `E8M0`). -/
def formats : List Fmt := [float32, float64, half, bfloat16, e4m3, e5m2, e2m1, e2m3, e3m2]

/-- Those that fill their bytes. -/
def byteFormats : List Fmt := [float32, float64, half, bfloat16, e4m3, e5m2]

theorem shape {F : Fmt} (h : F ∈ formats) : F.Shape := by
  simp only [formats, List.mem_cons, List.not_mem_nil, or_false] at h
  rcases h with rfl | rfl | rfl | rfl | rfl | rfl | rfl | rfl | rfl <;> constructor <;>
    first | decide | (intro m h; cases h <;> decide)

theorem full {F : Fmt} (h : F ∈ byteFormats) : F.Full := by
  have h' : F ∈ formats := by
    simp only [byteFormats, List.mem_cons, List.not_mem_nil, or_false] at h
    rcases h with rfl | rfl | rfl | rfl | rfl | rfl <;> simp [formats]
  refine ⟨shape h', ?_, ?_⟩ <;> simp only [byteFormats, List.mem_cons, List.not_mem_nil, or_false] at h <;>
    rcases h with rfl | rfl | rfl | rfl | rfl | rfl <;> decide

/-! ## C10 -/

/-- Every 8-, 16-, 32- or 64-bit value (number, infinity or NaN; the sign of zero and subnormal
numbers included) can be printed, and parsing the text, whatever follows it but a digit, gives the
same bits and consumes exactly the text. -/
theorem text_round_trip {F : Fmt} (hF : F ∈ byteFormats) (b : Nat) (hb : b < 2 ^ F.W) (cs : List Char)
    (hcs : ∀ c rest, cs = c :: rest → ¬ ('0' ≤ c ∧ c ≤ '9')) :
    ∃ t, print F b = some t ∧ parse F (t ++ cs) = .ok b cs := by
  refine round_trip (full hF) hb (fun c rest h => ?_)
  have := hcs c rest h
  simp only [isDigit, Bool.and_eq_false_iff, decide_eq_false_iff_not]
  grind

/-- So different values have different texts. -/
theorem text_injective {F : Fmt} (hF : F ∈ byteFormats) (b b' : Nat) (hb : b < 2 ^ F.W) (hb' : b' < 2 ^ F.W)
    (h : print F b = print F b') : b = b' := by
  obtain ⟨t, h1, h2⟩ := text_round_trip hF b hb [] (by simp)
  obtain ⟨t', h3, h4⟩ := text_round_trip hF b' hb' [] (by simp)
  rw [h1, h3] at h
  cases h
  rw [h2] at h4
  cases h4; rfl

example : print half 0x3555 = some "0x1.554p-2".toList := by decide +kernel
example : parse half "0x1.554p-2 rest".toList = .ok 0x3555 " rest".toList := by decide +kernel
example : print float64 0x8000000000000000 = some "-0x0p+0".toList := by decide +kernel

/-- The numbers of four and six bits that are not subnormal survive as well … -/
theorem text_round_trip_small {F : Fmt} (hF : F = e2m1 ∨ F = e2m3 ∨ F = e3m2) (b : Nat) (hb : b < 2 ^ F.used)
    (hn : F.expField b ≠ 0 ∨ F.fracField b = 0) : ∃ t, print F b = some t ∧ parse F t = .ok b [] := by
  rcases hF with rfl | rfl | rfl
  · revert b; have : ∀ b : Fin 16, (e2m1.expField b ≠ 0 ∨ e2m1.fracField b = 0) → ((print e2m1 b).map (parse e2m1)) = some (.ok b []) := by
      decide +kernel
    intro b hb hn
    have := this ⟨b, hb⟩ hn
    rcases h : print e2m1 b with _ | t
    · rw [h] at this; cases this
    · rw [h] at this; exact ⟨t, rfl, Option.some.inj this⟩
  · revert b; have : ∀ b : Fin 64, (e2m3.expField b ≠ 0 ∨ e2m3.fracField b = 0) → ((print e2m3 b).map (parse e2m3)) = some (.ok b []) := by
      decide +kernel
    intro b hb hn
    have := this ⟨b, hb⟩ hn
    rcases h : print e2m3 b with _ | t
    · rw [h] at this; cases this
    · rw [h] at this; exact ⟨t, rfl, Option.some.inj this⟩
  · revert b; have : ∀ b : Fin 64, (e3m2.expField b ≠ 0 ∨ e3m2.fracField b = 0) → ((print e3m2 b).map (parse e3m2)) = some (.ok b []) := by
      decide +kernel
    intro b hb hn
    have := this ⟨b, hb⟩ hn
    rcases h : print e3m2 b with _ | t
    · rw [h] at this; cases this
    · rw [h] at this; exact ⟨t, rfl, Option.some.inj this⟩

/-- … but subnormal ones do not: one half as an `E2M1` number is printed as `0x1p-1`, which is parsed
as zero. -/
theorem text_small_subnormal_lost : print e2m1 1 = some "0x1p-1".toList ∧ parse e2m1 "0x1p-1".toList = .ok 0 [] := by
  refine ⟨?_, by decide +kernel⟩
  have h : printLoop 8 8 (-1) = some (8, -1) := by rw [printLoop]; rfl
  unfold print
  have e1 : ((1 : Nat) &&& e2m1.expMask) >>> e2m1.f = 0 := by decide
  have e2 : u 64 ((1 &&& e2m1.fracMask) <<< e2m1.overflowBits) = 8 := by decide
  have e3 : 1 <<< (e2m1.f + e2m1.overflowBits - 1) = 8 := by decide
  have e4 : wrap 64 (((0 : Nat) : Int) - (e2m1.bias : Int)) = -1 := by decide +kernel
  simp only [e1, e2, e3, e4]
  simp only [h, show (e2m1.hasZero && (0 : Nat) == 0 && (8 : Nat) == 0) = false by decide,
    show (e2m1.hasZero && (0 : Nat) == 0 && !false) = true by decide, show (decide (e2m1.f > 0) && true) = true by decide,
    if_true, Bool.false_eq_true, if_false, Option.bind_eq_bind, Option.bind_some]
  decide +kernel

/-! ## C11 -/

/-- Zeros keep their sign. -/
theorem castTo_zero {F G : Fmt} (hF : F ∈ formats) (hG : G ∈ formats) (dir : Dir) (b : Nat)
    (hb : b < 2 ^ (F.e + F.f + 1)) (h0 : F.expField b = 0 ∧ F.fracField b = 0) :
    ∃ c, castTo F G dir b = some (c, .success) ∧ G.Num c ∧ G.val c = 0 ∧ (G.neg c ↔ F.neg b) := by
  obtain ⟨s, x, m, hs, hx, hm, rfl⟩ := F.enc_surj hb
  rw [enc_expField hs hx hm, enc_fracField hs hx hm] at h0
  obtain ⟨rfl, rfl⟩ := h0
  have h1 := two_pow_pos G.e; have h2 := two_pow_pos G.f
  have h3 : 0 < 2 ^ G.e - 1 := by
    have := Nat.one_lt_two_pow (n := G.e) (by have := (shape hG).e_pos; omega); omega
  refine ⟨_, cast_zero (shape hF) (shape hG) dir hs, enc_num hs h1 h2 h3, ?_, ?_⟩
  · unfold Fmt.val
    rw [enc_mag hs h1 h2]
    simp [Rat.div_def]
  · rw [enc_neg hs h1 h2, enc_neg hs hx hm]

/-- NaNs become NaNs of the same sign; formats without give "not representable". -/
theorem castTo_nan {F G : Fmt} (hF : F ∈ formats) (hG : G ∈ formats) (dir : Dir) (b : Nat)
    (hb : b < 2 ^ (F.e + F.f + 1)) (hn : F.NaN b) :
    (G.hasNaN = true → ∃ c r, castTo F G dir b = some (c, r) ∧ G.NaN c ∧ (G.neg c ↔ F.neg b) ∧ c < 2 ^ (G.e + G.f + 1) ∧
      r ≠ .notRepresentable) ∧
    (G.hasNaN = false → castTo F G dir b = some (0, .notRepresentable)) := by
  obtain ⟨s, x, m, hs, hx, hm, rfl⟩ := F.enc_surj hb
  rw [enc_neg hs hx hm]
  exact cast_nan (shape hF) (shape hG) dir hs hx hm hn

/-- Infinities become infinities of the same sign; formats without give their greatest number. -/
theorem castTo_inf {F G : Fmt} (hF : F ∈ formats) (hG : G ∈ formats) (dir : Dir) (b : Nat)
    (hb : b < 2 ^ (F.e + F.f + 1)) (hn : F.Inf b) :
    ∃ c, castTo F G dir b = some (c, .success) ∧
      (G.hasInf = true → G.Inf c ∧ (G.neg c ↔ F.neg b) ∧ c < 2 ^ (G.e + G.f + 1)) ∧
      (G.hasInf = false → c = (if F.neg b then G.signMask else 0) ||| G.maxBits) := by
  obtain ⟨s, x, m, hs, hx, hm, rfl⟩ := F.enc_surj hb
  simp only [enc_neg hs hx hm]
  exact cast_inf (shape hF) (shape hG) dir hs hx hm hn

theorem exists_src {F G : Fmt} (hF : F ∈ formats) (hG : G ∈ formats) (hc : Compatible F G) (b : Nat) (hb : F.Num b)
    (hne : F.val b ≠ 0) : ∃ s x m E M, b = F.enc s x m ∧ Src F G s x m E M := by
  obtain ⟨s, x, m, hs, hx, hm, rfl⟩ := F.enc_surj hb.1
  have h0 : ¬ (x = 0 ∧ m = 0) := by
    rintro ⟨rfl, rfl⟩
    apply hne
    unfold Fmt.val
    rw [enc_mag hs hx hm]
    simp [Rat.div_def]
  obtain ⟨E, M, hN⟩ := exists_normal (shape hF) hs hx hm h0
  exact ⟨s, x, m, E, M, rfl, shape hF, shape hG, hs, hx, hm, hN, h0, hb, hc⟩

theorem Src.truncates {F G : Fmt} {s x m : Nat} {E : Int} {M : Nat} (S : Src F G s x m E M) (dir : Dir) :
    Truncates dir (F.val (F.enc s x m)) ↔ ∀ t r d, ¬ Away dir (s = 1) t r d := by
  have h1 := S.neg_iff_lt; have h2 := S.val_ne
  have h3 : 0 < F.val (F.enc s x m) ↔ ¬ s = 1 := by
    rw [← h1]
    constructor
    · intro h4 h5; grind
    · intro h4
      exact Rat.not_le.1 (fun h5 => h4 (by grind))
  unfold Truncates Away
  cases dir
  · simp
  · simp only [reduceCtorEq, false_and, or_self, false_iff]
    intro h
    exact h 0 1 1 (Or.inl (by omega))
  · simp [h1]
  · simp [h3]

/-- `castTo` rounds as asked: the number is in range, and either not below the normal numbers of the
target or cut off by the direction.  Missing, because it is not so: when rounding away from zero
carries out of the fraction, the exponent is not increased and the result is half of what it should
be.  The result says "success" just when it is exact. -/
theorem castTo_rounds_partial {F G : Fmt} (hF : F ∈ formats) (hG : G ∈ formats) (hc : Compatible F G) (dir : Dir) (b : Nat)
    (hb : F.Num b) (hne : F.val b ≠ 0) (hmax : (F.val b).abs ≤ G.maxFinite)
    (hn : Truncates dir (F.val b) ∨ G.minNormal ≤ (F.val b).abs) :
    ∃ c r, castTo F G dir b = some (c, r) ∧ G.Num c ∧ (G.neg c ↔ F.neg b) ∧ (r = .success ↔ G.val c = F.val b) ∧
      (Rounds G dir (F.val b) c ∨ (¬ Truncates dir (F.val b) ∧ ∃ c', Rounds G dir (F.val b) c' ∧ G.fracField c' = 0 ∧
        (F.val b).abs < (G.val c').abs ∧ G.val c' = 2 * G.val c)) := by
  obtain ⟨s, x, m, E, M, rfl, S⟩ := exists_src hF hG hc b hb hne
  obtain ⟨sig, carry, r, R⟩ := exists_rounded S.hF S.hG S.hs S.hx S.hm S.hN dir
  rw [S.neg_iff]
  rcases Int.lt_or_le 0 (E + G.bias) with h1 | h1
  · obtain ⟨c, h2, h3, h4, h5, _, _, h6⟩ := S.normal dir R h1 (S.inRange dir R hmax)
    refine ⟨c, r, h2, h3, h4, h5, ?_⟩
    rcases h6 with h6 | ⟨c', h6, h7, h8, h9, h10⟩
    · exact Or.inl h6
    · refine Or.inr ⟨?_, c', h6, h7, ?_, h8⟩
      · rw [S.truncates]
        intro h
        rcases R.cases with ⟨_, h11, _⟩ | ⟨_, h11, _⟩
        · rw [h11] at h9; cases h9
        · exact h _ _ _ h11
      · rw [S.abs_val, S.abs_val', q_lt (Nat.mul_pos (two_pow_pos _) (two_pow_pos _))]
        exact Int.ofNat_lt.2 h10
  · obtain ⟨c, r', h2, h3, h4, h5, _, h6, _⟩ := S.denorm dir R h1
    refine ⟨c, r', h2, h3, h4, h5, Or.inl (h6 ?_)⟩
    rcases hn with hn | hn
    · exact (S.truncates dir).1 hn
    · have := S.normal_of_le hn; omega

/-- Cutting off is always right. -/
theorem castTo_truncates {F G : Fmt} (hF : F ∈ formats) (hG : G ∈ formats) (hc : Compatible F G) (dir : Dir) (b : Nat)
    (hb : F.Num b) (hne : F.val b ≠ 0) (hmax : (F.val b).abs ≤ G.maxFinite) (ht : Truncates dir (F.val b)) :
    ∃ c r, castTo F G dir b = some (c, r) ∧ Rounds G dir (F.val b) c ∧ (G.neg c ↔ F.neg b) ∧
      (r = .success ↔ G.val c = F.val b) := by
  obtain ⟨c, r, h1, _, h2, h3, h4 | ⟨h4, _⟩⟩ := castTo_rounds_partial hF hG hc dir b hb hne hmax (Or.inl ht)
  · exact ⟨c, r, h1, h4, h2, h3⟩
  · exact absurd ht h4

/-- A number in range always becomes a number of the same sign, zero only if it is less than the
least number above zero, and "success" just when nothing is lost. -/
theorem castTo_in_range {F G : Fmt} (hF : F ∈ formats) (hG : G ∈ formats) (hc : Compatible F G) (dir : Dir) (b : Nat)
    (hb : F.Num b) (hne : F.val b ≠ 0) (hmax : (F.val b).abs ≤ G.maxFinite) :
    ∃ c r, castTo F G dir b = some (c, r) ∧ G.Num c ∧ (G.neg c ↔ F.neg b) ∧ (r = .success ↔ G.val c = F.val b) ∧
      ((∃ d, G.Num d ∧ G.val d = F.val b) → r = .success) ∧
      (G.val c = 0 → (F.val b).abs < G.minNormal / 2 ^ G.f) := by
  obtain ⟨s, x, m, E, M, rfl, S⟩ := exists_src hF hG hc b hb hne
  obtain ⟨sig, carry, r, R⟩ := exists_rounded S.hF S.hG S.hs S.hx S.hm S.hN dir
  have hPQ := Nat.mul_pos (two_pow_pos (F.bias + F.f)) (two_pow_pos (G.bias + G.f))
  have hrep : (∃ d, G.Num d ∧ G.val d = F.val (F.enc s x m)) →
      ∃ d, G.mag d * 2 ^ (F.bias + F.f) = F.mag (F.enc s x m) * 2 ^ (G.bias + G.f) := by
    rintro ⟨d, _, hd⟩
    refine ⟨d, ?_⟩
    have := congrArg Rat.abs hd
    rw [S.abs_val, S.abs_val', q_inj hPQ] at this
    omega
  have hzero : ∀ c, G.val c = 0 → G.mag c = 0 := by
    intro c h
    have := congrArg Rat.abs h
    rw [S.abs_val', Rat.abs_of_nonneg (by grind : (0 : Rat) ≤ 0), ← q_zero (n := 2 ^ (F.bias + F.f) * 2 ^ (G.bias + G.f)),
      q_inj hPQ] at this
    have h1 : G.mag c * 2 ^ (F.bias + F.f) = 0 := by omega
    rcases Nat.mul_eq_zero.1 h1 with h2 | h2
    · exact h2
    · have := two_pow_pos (F.bias + F.f); omega
  have hmin : G.minNormal / 2 ^ G.f = q (2 ^ (F.bias + F.f) * 2 ^ (G.bias + G.f)) ((2 * 2 ^ (F.bias + F.f) : Nat) : Int) := by
    rw [minNormal_q (F := F)]
    have h3 := rat_pos (two_pow_pos G.f)
    unfold q
    push_cast at h3 ⊢
    have key : ∀ f p d : Rat, 0 < f → f * (2 * p) / d / f = 2 * p / d := by
      intro f p d h
      have : f ≠ 0 := by grind
      grind
    exact key _ _ _ h3
  rw [S.neg_iff, S.abs_val, hmin, q_lt hPQ]
  rcases Int.lt_or_le 0 (E + G.bias) with h1 | h1
  · obtain ⟨c, h2, h3, h4, h5, h6, h7, _⟩ := S.normal dir R h1 (S.inRange dir R hmax)
    exact ⟨c, r, h2, h3, h4, h5, fun h => h7 (hrep h), fun h => absurd (hzero c h) h6⟩
  · obtain ⟨c, r', h2, h3, h4, h5, _, _, h6, h7⟩ := S.denorm dir R h1
    exact ⟨c, r', h2, h3, h4, h5, fun h => h7 (hrep h), fun h => Int.ofNat_lt.2 (h6 (hzero c h))⟩

/-- What is representable is converted exactly, in every direction. -/
theorem castTo_exact {F G : Fmt} (hF : F ∈ formats) (hG : G ∈ formats) (hc : Compatible F G) (dir : Dir) (b d : Nat)
    (hb : F.Num b) (hne : F.val b ≠ 0) (hmax : (F.val b).abs ≤ G.maxFinite) (hd : G.Num d) (h : G.val d = F.val b) :
    ∃ c, castTo F G dir b = some (c, .success) ∧ G.Num c ∧ G.val c = F.val b := by
  obtain ⟨c, r, h1, h2, _, h3, h4, _⟩ := castTo_in_range hF hG hc dir b hb hne hmax
  have hr := h4 ⟨d, hd, h⟩
  exact ⟨c, by rw [h1, hr], h2, h3.1 hr⟩

/-- Numbers beyond the greatest become an infinity of the same sign, unless the direction asks for
the greatest number and the number is less than the next power of two. -/
theorem castTo_overflow {F G : Fmt} (hF : F ∈ formats) (hG : G ∈ formats) (hc : Compatible F G) (hi : G.hasInf = true)
    (dir : Dir) (b : Nat) (hb : F.Num b) (hne : F.val b ≠ 0) (hmax : G.maxFinite < (F.val b).abs) :
    ∃ c r, castTo F G dir b = some (c, r) ∧ c < 2 ^ (G.e + G.f + 1) ∧ (G.neg c ↔ F.neg b) ∧
      (((F.val b).abs < 2 ^ (G.bias + 1) ∧ (Truncates dir (F.val b) ∨ dir = .nearestEven ∧ (F.val b).abs < G.halfway)) →
        G.Num c ∧ (G.val c).abs = G.maxFinite) ∧
      (¬ ((F.val b).abs < 2 ^ (G.bias + 1) ∧ (Truncates dir (F.val b) ∨ dir = .nearestEven ∧ (F.val b).abs < G.halfway)) →
        G.Inf c) := by
  obtain ⟨s, x, m, E, M, rfl, S⟩ := exists_src hF hG hc b hb hne
  rw [S.neg_iff, S.truncates]
  exact S.beyond dir hi hmax

/-- To a format with a longer fraction and a wider range every number is converted exactly. -/
theorem castTo_widens {F G : Fmt} (hF : F ∈ formats) (hG : G ∈ formats) (hc : Compatible F G) (hf : F.f ≤ G.f)
    (hr : F.bias + F.f ≤ G.bias) (dir : Dir) (b : Nat) (hb : F.Num b) (hne : F.val b ≠ 0) :
    ∃ c, castTo F G dir b = some (c, .success) ∧ G.Num c ∧ G.val c = F.val b := by
  obtain ⟨s, x, m, E, M, rfl, S⟩ := exists_src hF hG hc b hb hne
  obtain ⟨sig, carry, r, R⟩ := exists_rounded S.hF S.hG S.hs S.hx S.hm S.hN dir
  have e0 : (2 ^ F.f + M) * 2 ^ G.f % 2 ^ F.f = 0 := by
    have e : (2 ^ F.f + M) * 2 ^ G.f = (2 ^ F.f + M) * 2 ^ (G.f - F.f) * 2 ^ F.f := by
      rw [Nat.mul_assoc, ← Nat.pow_add]; congr 2; omega
    rw [e, Nat.mul_mod_left]
  have hcar : carry = false := by
    rcases R.cases with ⟨_, h, _⟩ | ⟨h, _⟩
    · exact h
    · exact absurd e0 h
  have h1 := S.hN.lo; have h2 := S.hN.hi; have h3 := int_bias2 S.hF
  have hpos := S.hF.f_pos
  obtain ⟨c, h4, h5, _, h6, _⟩ := S.normal dir R (by omega) (by rw [hcar]; simp; omega)
  have hs : r = .success := by rw [R.res, if_pos e0]
  exact ⟨c, by rw [h4, hs], h5, h6.1 hs⟩

/-- And back again: the bits are those one started from, zeros included, in every direction. -/
theorem castTo_there_and_back {F G : Fmt} (hF : F ∈ formats) (hG : G ∈ formats) (hi : F.special = .ieee) (hc : Compatible F G)
    (hc' : Compatible G F) (hf : F.f ≤ G.f) (hr : F.bias + F.f ≤ G.bias) (dir dir' : Dir) (b : Nat) (hb : F.Num b) :
    ∃ c, castTo F G dir b = some (c, .success) ∧ castTo G F dir' c = some (b, .success) := by
  by_cases hne : F.val b = 0
  · obtain ⟨s, x, m, hs, hx, hm, rfl⟩ := F.enc_surj hb.1
    have h3 : x = 0 ∧ m = 0 := by
      rw [val_q F _ 1 (by decide), ← q_zero (n := 2 ^ (F.bias + F.f) * 1), q_inj (Nat.mul_pos (two_pow_pos _) (by decide)),
        enc_mag hs hx hm] at hne
      have h3 : (if x = 0 then m else 2 ^ F.f + m) * 2 ^ max x 1 = 0 := by
        unfold sg at hne; split at hne <;> omega
      rcases Nat.mul_eq_zero.1 h3 with h4 | h4
      · have := two_pow_pos F.f
        split at h4 <;> omega
      · have := two_pow_pos (max x 1); omega
    obtain ⟨rfl, rfl⟩ := h3
    exact ⟨_, cast_zero (shape hF) (shape hG) dir hs, cast_zero (shape hG) (shape hF) dir' hs⟩
  · obtain ⟨c, h1, h2, h3⟩ := castTo_widens hF hG hc hf hr dir b hb hne
    have hs : G.neg c ↔ F.neg b := by
      obtain ⟨s, x, m, E, M, rfl, S⟩ := exists_src hF hG hc b hb hne
      obtain ⟨s', x', m', E', M', rfl, S'⟩ := exists_src hG hF hc' c h2 (by rw [h3]; exact hne)
      rw [S.neg_iff, S'.neg_iff, ← S.neg_iff_lt, ← S'.neg_iff_lt, h3]
    have hle := num_le (shape hF) hi hb
    obtain ⟨d, r, h4, h5, h6, h7, h8, _⟩ := castTo_in_range hG hF hc' dir' c h2 (by rw [h3]; exact hne) (by rw [h3]; exact hle)
    have hsu := h8 ⟨b, hb, h3.symm⟩
    have hd : d = b := val_inj h5.1 hb.1 (h6.trans hs) ((h7.1 hsu).trans h3)
    exact ⟨c, h1, by rw [h4, hsu, hd]⟩

/-- In particular for 16- and 32-bit, and for 32- and 64-bit numbers. -/
theorem half_float_half (dir dir' : Dir) (b : Nat) (hb : half.Num b) :
    ∃ c, castTo half float32 dir b = some (c, .success) ∧ castTo float32 half dir' c = some (b, .success) :=
  castTo_there_and_back (by simp [formats]) (by simp [formats]) rfl (by decide) (by decide) (by decide) (by decide) dir dir' b hb

theorem float_double_float (dir dir' : Dir) (b : Nat) (hb : float32.Num b) :
    ∃ c, castTo float32 float64 dir b = some (c, .success) ∧ castTo float64 float32 dir' c = some (b, .success) :=
  castTo_there_and_back (by simp [formats]) (by simp [formats]) rfl (by decide) (by decide) (by decide) (by decide) dir dir' b hb

/-- `OpQuantizeToF16` on a constant (/repo/source/opt/const_folding_rules.cpp 928-948): to 16 bits
and back, towards zero. -/
def quantize (b : Nat) : Option Nat := do
  let (c, _) ← castTo float32 half .toZero b
  let (d, _) ← castTo half float32 .toZero c
  return d

/-- Quantizing a number in range gives the greatest 16-bit number in magnitude that is not beyond
it, with its sign. -/
theorem quantize_rounds (b : Nat) (hb : float32.Num b) (hne : float32.val b ≠ 0) (hmax : (float32.val b).abs ≤ 65504) :
    ∃ c d, quantize b = some d ∧ float32.Num d ∧ Rounds half .toZero (float32.val b) c ∧ float32.val d = half.val c := by
  have hmem : float32 ∈ formats := by simp [formats]
  have hmem' : half ∈ formats := by simp [formats]
  obtain ⟨c, r, h1, h2, _, _⟩ := castTo_truncates hmem hmem' (by decide) .toZero b hb hne
    (by have : half.maxFinite = 65504 := by decide +kernel
        rw [this]; exact hmax) (Or.inl rfl)
  by_cases h0 : half.val c = 0
  · have hz : half.expField c = 0 ∧ half.fracField c = 0 := by
      obtain ⟨s, x, m, hs, hx, hm, rfl⟩ := half.enc_surj h2.1.1
      rw [val_q half _ 1 (by decide), ← q_zero (n := 2 ^ (half.bias + half.f) * 1), q_inj (by decide +kernel), enc_mag hs hx hm] at h0
      rw [enc_expField hs hx hm, enc_fracField hs hx hm]
      have h3 : (if x = 0 then m else 2 ^ half.f + m) * 2 ^ max x 1 = 0 := by
        unfold sg at h0; split at h0 <;> omega
      rcases Nat.mul_eq_zero.1 h3 with h4 | h4
      · have := two_pow_pos half.f
        split at h4 <;> omega
      · have := two_pow_pos (max x 1); omega
    obtain ⟨d, h3, h4, h5, _⟩ := castTo_zero hmem' hmem .toZero c h2.1.1 hz
    refine ⟨c, d, ?_, h4, h2, by rw [h5, h0]⟩
    unfold quantize
    rw [h1]
    simp only [Option.bind_eq_bind, Option.bind_some, h3]
    rfl
  · obtain ⟨d, h3, h4, h5⟩ := castTo_widens hmem' hmem (by decide) (by decide) (by decide) .toZero c h2.1 h0
    refine ⟨c, d, ?_, h4, h2, h5⟩
    unfold quantize
    rw [h1]
    simp only [Option.bind_eq_bind, Option.bind_some, h3]
    rfl

/-! The hypotheses can be met: for one third and two to the seventeenth. -/

example : castTo float32 half .nearestEven 0x3eaaaaab = some (0x3555, .lostPrecision) := by decide +kernel
example : float32.Num 0x3eaaaaab ∧ float32.val 0x3eaaaaab ≠ 0 ∧ (float32.val 0x3eaaaaab).abs ≤ half.maxFinite ∧
    half.minNormal ≤ (float32.val 0x3eaaaaab).abs ∧ Compatible float32 half := by
  refine ⟨⟨by decide, ?_, ?_⟩, ?_, ?_, ?_, by decide⟩
  · show ¬ (_ ∧ _); decide
  · show ¬ (_ ∧ _); decide
  all_goals decide +kernel
example : castTo float32 half .toZero 0x48000000 = some (0x7c00, .success) ∧
    half.maxFinite < (float32.val 0x48000000).abs := by decide +kernel
example : castTo half float32 .toPosInf 0x3555 = some (0x3eaaa000, .success) := by decide +kernel

/-! ## Where the property fails -/

/-- A carry out of the fraction is lost: the float below two becomes one when rounded to 16 bits,
although two is nearer. -/
theorem castTo_carry_lost : castTo float32 half .nearestEven 0x3fffffff = some (0x3c00, .lostPrecision) ∧
    half.val 0x3c00 = 1 ∧ half.val 0x4000 = 2 ∧
    (float32.val 0x3fffffff - half.val 0x4000).abs < (float32.val 0x3fffffff - half.val 0x3c00).abs := by
  decide +kernel

/-- Subnormal results are cut off whatever the direction: three quarters of the least 16-bit number
become zero, not that number … -/
theorem castTo_subnormal_not_nearest : castTo float32 half .nearestEven 0x33400000 = some (0, .lostPrecision) ∧
    (float32.val 0x33400000 - half.val 1).abs < (float32.val 0x33400000 - half.val 0).abs := by
  decide +kernel

/-- … and a result rounded up may be less than the number. -/
theorem castTo_subnormal_not_up : castTo float32 half .toPosInf 0x33802000 = some (1, .lostPrecision) ∧
    half.val 1 < float32.val 0x33802000 := by
  decide +kernel

/-- Rounded towards zero, a number out of range becomes infinity, and the result is "success". -/
theorem castTo_toZero_infinity : castTo float32 half .toZero 0x48000000 = some (0x7c00, .success) ∧ half.Inf 0x7c00 := by
  refine ⟨by decide +kernel, ?_⟩
  show _ ∧ _
  decide +kernel

/-- `E4M3` and `E2M1` use the highest exponent for numbers, which is not taken into account: 256 and 4
are representable, but become 448 and 6, with "success". -/
theorem castTo_top_binade :
    castTo half e4m3 .nearestEven 0x5c00 = some (0x7e, .success) ∧ half.val 0x5c00 = 256 ∧ e4m3.val 0x78 = 256 ∧
      e4m3.val 0x7e = 448 ∧
    castTo half e2m1 .nearestEven 0x4400 = some (7, .success) ∧ half.val 0x4400 = 4 ∧ e2m1.val 6 = 4 ∧ e2m1.val 7 = 6 := by
  decide +kernel

/-- The exponent is stored in the signed type of the target: a number less than `2^-128` becomes an
`E4M3` number that is not small, with "success". -/
theorem castTo_exponent_wraps : castTo float32 e4m3 .toZero 0x100000 = some (0x30, .success) ∧
    float32.val 0x100000 = 1 / 2 ^ 129 ∧ e4m3.val 0x30 = 1 / 2 := by
  refine ⟨?_, by decide +kernel⟩
  have hN := normal_denorm (F := float32) (shape (by simp [formats])) (s := 0) (m := 0x100000) (k := 2)
    (by decide) (by decide) (by decide) (by decide) (by decide)
  have e : float32.enc 0 0 0x100000 = 0x100000 := by decide
  rw [e] at hN
  have h1 := hN.exp; have h2 := hN.sig
  unfold castTo Fmt.roundedSig
  rw [h1, h2]
  decide +kernel

/-- The bias of the target is stored in the signed type of the source: one as an `E4M3` number
becomes infinity as a double. -/
theorem castTo_bias_wraps : castTo e4m3 float64 .toZero 0x38 = some (0x7ff0000000000000, .success) ∧ e4m3.val 0x38 = 1 := by
  decide +kernel

/-- Normalizing the least `E8M0` number, `2^-127`, never ends. -/
theorem castTo_e8m0_loops (G : Fmt) (dir : Dir) : castTo e8m0 G dir 0 = none := by
  have h : ∀ sig x, e8m0.normLoop sig x = none := by
    intro sig x
    rcases hr : e8m0.normLoop sig x with _ | r
    · rfl
    · exfalso
      refine Fmt.normLoop.partial_correctness e8m0 (fun _ _ _ => False) ?_ sig x r hr
      intro f ih sig x r h
      rw [if_pos (by rw [show e8m0.firstExpBit >>> 1 = 0 by decide, Nat.and_zero])] at h
      exact ih _ _ _ h
  unfold castTo Fmt.roundedSig Fmt.normalizedSig Fmt.normalizedExp
  simp only [h]
  rfl

/-- In text, the exponent of a small fraction is counted in the signed type: what should be `2^-34`
is parsed as an `E4M3` number of 256. -/
theorem parse_exponent_wraps : parse e4m3 ("0x0.".toList ++ List.replicate 33 '0' ++ "1p+0".toList) = .ok 0x78 [] ∧
    e4m3.val 0x78 = 256 := by decide +kernel

/-- Numbers too small for a normal 16-bit number are quantized to subnormal ones, not to zero as
SPIR-V says: `2^-15` stays what it is. -/
theorem quantize_keeps_subnormals : quantize 0x38000000 = some 0x38000000 ∧
    (float32.val 0x38000000).abs < half.minNormal := by
  refine ⟨?_, by decide +kernel⟩
  have hN := normal_denorm (F := half) (shape (by simp [formats])) (s := 0) (m := 0x200) (k := 0)
    (by decide) (by decide) (by decide) (by decide) (by decide)
  have e : half.enc 0 0 0x200 = 0x200 := by decide
  rw [e] at hN
  have h1 := hN.exp; have h2 := hN.sig
  have h3 : castTo float32 half .toZero 0x38000000 = some (0x200, .success) := by decide +kernel
  have h4 : castTo half float32 .toZero 0x200 = some (0x38000000, .success) := by
    unfold castTo Fmt.roundedSig
    rw [h1, h2]
    decide +kernel
  unfold quantize
  rw [h3]
  simp only [Option.bind_eq_bind, Option.bind_some, h4]
  rfl

end Verif.HexFloat
