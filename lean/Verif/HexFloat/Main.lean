import Verif.HexFloat.Round

/-! Rounding by `castTo` -/
set_option linter.unusedSimpArgs false
set_option linter.unusedVariables false
namespace Verif.HexFloat

section
variable {G : Fmt} (hG : G.Shape) {s x m : Nat} (hs : s < 2) (hx : x < 2 ^ G.e) (hm : m < 2 ^ G.f)
include hs hx hm

theorem enc_num (hlt : x < 2 ^ G.e - 1) : G.Num (G.enc s x m) := by
  refine ⟨enc_lt hs hx hm, ?_, ?_⟩
  · unfold Fmt.NaN
    rw [enc_expField hs hx hm]
    split
    · omega
    · omega
    · exact id
  · unfold Fmt.Inf
    rw [enc_expField hs hx hm]
    split
    · omega
    · exact id
    · exact id

include hG in
theorem enc_parity : G.enc s x m % 2 = m % 2 := by
  have hf := hG.f_pos
  have e1 : 2 ^ G.f = 2 * 2 ^ (G.f - 1) := by rw [← Nat.pow_succ']; congr 1; omega
  have e2 : G.enc s x m = 2 * (s * (2 ^ G.e * 2 ^ (G.f - 1)) + x * 2 ^ (G.f - 1)) + m := by
    unfold Fmt.enc
    rw [Nat.pow_add, e1]
    grind
  omega

end

theorem exact_of_rep {F G : Fmt} {T k X d : Nat} (hk : 1 ≤ k) (ht : k = 1 ∨ 2 ^ G.f ≤ T)
    (hlo : T * (2 ^ k * 2 ^ (F.bias + F.f)) ≤ X) (hhi : X < T * (2 ^ k * 2 ^ (F.bias + F.f)) + 2 ^ k * 2 ^ (F.bias + F.f))
    (hd : G.mag d * 2 ^ (F.bias + F.f) = X) : X = T * (2 ^ k * 2 ^ (F.bias + F.f)) := by
  have hP := two_pow_pos (F.bias + F.f)
  rcases mag_gap (G := G) (d := d) hk ht with h | h
  · have := Nat.mul_le_mul_right (2 ^ (F.bias + F.f)) h
    rw [hd, Nat.mul_assoc] at this; omega
  · have := Nat.mul_le_mul_right (2 ^ (F.bias + F.f)) h
    rw [hd, Nat.mul_assoc, Nat.add_mul, Nat.one_mul] at this; omega

/-- A number of the source format that is not zero. -/
structure Src (F G : Fmt) (s x m : Nat) (E : Int) (M : Nat) : Prop where
  hF : F.Shape
  hG : G.Shape
  hs : s < 2
  hx : x < 2 ^ F.e
  hm : m < 2 ^ F.f
  hN : Normal F (F.enc s x m) E M
  h0 : ¬ (x = 0 ∧ m = 0)
  num : F.Num (F.enc s x m)
  comp : Compatible F G

section
variable {F G : Fmt} {s x m : Nat} {E : Int} {M : Nat} (S : Src F G s x m E M)
include S

theorem Src.scale {k h : Nat} (hk : (h : Int) + E + G.bias = k) : ∃ Z, 0 < Z ∧ 2 ^ h * Z = 2 ^ k * 2 ^ (F.bias + F.f) ∧
    F.mag (F.enc s x m) * 2 ^ (G.bias + G.f) * 2 ^ F.f = (2 ^ F.f + M) * 2 ^ G.f * Z := by
  have hlo := S.hN.lo
  refine ⟨2 ^ ((E + F.bias + F.f).toNat + G.bias), two_pow_pos _, ?_, ?_⟩
  · rw [← Nat.pow_add, ← Nat.pow_add]; congr 1; omega
  · have := S.hN.mag
    calc F.mag (F.enc s x m) * 2 ^ (G.bias + G.f) * 2 ^ F.f
        = (F.mag (F.enc s x m) * 2 ^ F.f) * 2 ^ (G.bias + G.f) := by
          rw [Nat.mul_assoc, Nat.mul_comm (2 ^ (G.bias + G.f)), ← Nat.mul_assoc]
      _ = (2 ^ F.f + M) * 2 ^ (E + F.bias + F.f).toNat * (2 ^ G.bias * 2 ^ G.f) := by rw [this, Nat.pow_add]
      _ = _ := by
        rw [Nat.pow_add]
        generalize 2 ^ (E + F.bias + F.f).toNat = a
        generalize 2 ^ G.bias = b
        generalize 2 ^ G.f = c
        grind

/-- The truncated number brackets the number. -/
theorem Src.bracket {k h : Nat} (hk : (h : Int) + E + G.bias = k) :
    let N := (2 ^ F.f + M) * 2 ^ G.f
    let T := N / (2 ^ F.f * 2 ^ h)
    let U := 2 ^ k * 2 ^ (F.bias + F.f)
    let X := F.mag (F.enc s x m) * 2 ^ (G.bias + G.f)
    0 < X ∧ 0 < U ∧ T * U ≤ X ∧ X < T * U + U ∧ (X = T * U ↔ N % (2 ^ F.f * 2 ^ h) = 0) ∧
      (h = 0 → (X - T * U) * 2 ^ F.f = N % 2 ^ F.f * U) := by
  intro N T U X
  obtain ⟨Z, hZ, hU, hX⟩ := S.scale hk
  have hD := two_pow_pos F.f
  have hN : 0 < N := Nat.mul_pos (by have := two_pow_pos F.f; omega) (two_pow_pos _)
  have hdm : N = (2 ^ F.f * 2 ^ h) * T + N % (2 ^ F.f * 2 ^ h) := (Nat.div_add_mod ..).symm
  have hml := Nat.mod_lt N (Nat.mul_pos hD (two_pow_pos h))
  have e1 : X * 2 ^ F.f = T * U * 2 ^ F.f + N % (2 ^ F.f * 2 ^ h) * Z := by
    rw [hX]
    show N * Z = _
    conv => lhs; rw [hdm]
    show _ = T * (2 ^ k * 2 ^ (F.bias + F.f)) * 2 ^ F.f + _
    rw [← hU]
    generalize N % (2 ^ F.f * 2 ^ h) = R
    generalize 2 ^ F.f = a
    generalize 2 ^ h = b
    grind
  have e2 : N % (2 ^ F.f * 2 ^ h) * Z < U * 2 ^ F.f := by
    have : U * 2 ^ F.f = 2 ^ F.f * 2 ^ h * Z := by
      show 2 ^ k * 2 ^ (F.bias + F.f) * 2 ^ F.f = _
      rw [← hU]; generalize 2 ^ h = a; generalize 2 ^ F.f = b; grind
    rw [this]
    exact Nat.mul_lt_mul_of_pos_right hml hZ
  refine ⟨?_, Nat.mul_pos (two_pow_pos _) (two_pow_pos _), ?_, ?_, ?_, ?_⟩
  · have : 0 < X * 2 ^ F.f := by rw [hX]; exact Nat.mul_pos hN hZ
    exact Nat.pos_of_mul_pos_right this
  · exact Nat.le_of_mul_le_mul_right (by omega) hD
  · have : X * 2 ^ F.f < (T * U + U) * 2 ^ F.f := by rw [Nat.add_mul]; omega
    exact Nat.lt_of_mul_lt_mul_right this
  · constructor
    · intro hh
      rw [hh] at e1
      have : N % (2 ^ F.f * 2 ^ h) * Z = 0 := by omega
      rcases Nat.mul_eq_zero.1 this with h | h <;> omega
    · intro hh
      rw [hh, Nat.zero_mul, Nat.add_zero] at e1
      exact Nat.eq_of_mul_eq_mul_right hD e1
  · intro h0
    subst h0
    rw [Nat.sub_mul, e1]
    have hZU : Z = U := by rw [Nat.pow_zero, Nat.one_mul] at hU; exact hU
    rw [Nat.pow_zero, Nat.mul_one, hZU]
    omega

/-- `Away` for the fraction and for the whole number. -/
theorem Src.away {k : Nat} (hk : E + G.bias = k) (dir : Dir) :
    Away dir (s = 1) ((2 ^ F.f + M) * 2 ^ G.f / 2 ^ F.f) ((2 ^ F.f + M) * 2 ^ G.f % 2 ^ F.f) (2 ^ F.f) ↔
      Away dir (s = 1) ((2 ^ F.f + M) * 2 ^ G.f / 2 ^ F.f)
        (F.mag (F.enc s x m) * 2 ^ (G.bias + G.f) - (2 ^ F.f + M) * 2 ^ G.f / 2 ^ F.f * (2 ^ k * 2 ^ (F.bias + F.f)))
        (2 ^ k * 2 ^ (F.bias + F.f)) := by
  obtain ⟨hX, hU, _, _, _, h5⟩ := S.bracket (k := k) (h := 0) (by omega)
  have h5 := h5 rfl
  rw [Nat.pow_zero, Nat.mul_one] at h5
  rw [← Away.scale (k := 2 ^ k * 2 ^ (F.bias + F.f)) hU rfl, ← h5, Nat.mul_comm (2 ^ F.f) (2 ^ k * 2 ^ (F.bias + F.f)),
    Away.scale (two_pow_pos F.f) rfl]

theorem Src.trunc_ge : 2 ^ G.f ≤ (2 ^ F.f + M) * 2 ^ G.f / 2 ^ F.f := by
  rw [Nat.le_div_iff_mul_le (two_pow_pos _), Nat.mul_comm]
  exact Nat.mul_le_mul_right _ (by omega)

theorem Src.wrapE (hle : E ≤ G.bias) : wrap G.W E = E := by
  have h1 : ((F.bias + F.f : Nat) : Int) ≤ ((2 ^ (G.W - 1) : Nat) : Int) := by exact_mod_cast S.comp.1
  have h2 : ((G.bias : Nat) : Int) < ((2 ^ (G.W - 1) : Nat) : Int) := by
    have := S.hG.bias; have := S.hG.room; exact_mod_cast (by omega : G.bias < 2 ^ (G.W - 1))
  have hlo := S.hN.lo
  have hsum := S.hG.sum; have hfits := S.hG.fits
  push_cast at h1 h2
  generalize he : (2 : Int) ^ (G.W - 1) = p at *
  apply wrap_eq (by omega) <;> rw [he] <;> omega

theorem Src.neg_iff : F.neg (F.enc s x m) ↔ s = 1 := enc_neg S.hs S.hx S.hm

/-- Results that are not subnormal. -/
theorem Src.normal (dir : Dir) {sig carry r} (R : RoundedTo F G dir s (F.enc s x m) M sig carry r)
    (h1 : 0 < E + G.bias) (h2 : E + (if carry then 1 else 0) ≤ G.bias) :
    ∃ c, castTo F G dir (F.enc s x m) = some (c, r) ∧ G.Num c ∧ (G.neg c ↔ s = 1) ∧
      (r = .success ↔ G.val c = F.val (F.enc s x m)) ∧ G.mag c ≠ 0 ∧
      ((∃ d, G.mag d * 2 ^ (F.bias + F.f) = F.mag (F.enc s x m) * 2 ^ (G.bias + G.f)) → r = .success) ∧
      (Rounds G dir (F.val (F.enc s x m)) c ∨
        ∃ c', Rounds G dir (F.val (F.enc s x m)) c' ∧ G.fracField c' = 0 ∧ G.val c' = 2 * G.val c ∧ carry = true ∧
          F.mag (F.enc s x m) * 2 ^ (G.bias + G.f) < G.mag c' * 2 ^ (F.bias + F.f)) := by
  have hG := S.hG; have hs := S.hs
  have hb2 := hG.bias2
  have hE : E ≤ G.bias := by split at h2 <;> omega
  obtain ⟨k, hk⟩ : ∃ k : Nat, E + G.bias = k := ⟨(E + G.bias).toNat, by omega⟩
  have hyk : (E + G.bias).toNat = k := by omega
  have hcast := castTo_split S.hF S.hG S.hs S.hx S.hm S.hN dir S.h0 S.num S.comp R
  rw [if_neg (by omega), S.wrapE hE, setFrom_normal hG hs R.lt _ h1 hE, hyk] at hcast
  have hy : k < 2 ^ G.e := by omega
  have hy1 : k < 2 ^ G.e - 1 := by omega
  have hmax : CastResult.success.max r = r := by
    rw [R.res]; split <;> rfl
  dsimp only at hcast
  rw [hmax] at hcast
  have hnum := enc_num hs hy R.lt hy1
  have hneg := enc_neg hs hy R.lt
  have hmag := enc_mag hs hy R.lt
  rw [if_neg (by omega), Nat.max_eq_left (by omega)] at hmag
  have hpar := enc_parity hG hs hy R.lt
  have hev : 2 ^ G.f % 2 = 0 := by
    have := hG.f_pos
    have e : 2 ^ G.f = 2 * 2 ^ (G.f - 1) := by rw [← Nat.pow_succ']; congr 1; omega
    omega
  obtain ⟨hX, hU, hlo, hhi, hex, _⟩ := S.bracket (k := k) (h := 0) (by omega)
  have haw := S.away hk dir
  have hge := S.trunc_ge
  rw [Nat.pow_zero, Nat.mul_one] at hlo hhi hex
  have hval : ∀ c, (G.neg c ↔ s = 1) → (G.val c = F.val (F.enc s x m) ↔
      G.mag c * 2 ^ (F.bias + F.f) = F.mag (F.enc s x m) * 2 ^ (G.bias + G.f)) := by
    intro c hc
    rw [val_q F _ _ (two_pow_pos (G.bias + G.f)), val_q' G c _ (two_pow_pos (F.bias + F.f)),
      q_inj (Nat.mul_pos (two_pow_pos _) (two_pow_pos _))]
    unfold sg
    simp only [hc, S.neg_iff]
    split <;> omega
  have hsucc : r = .success ↔ (2 ^ F.f + M) * 2 ^ G.f % 2 ^ F.f = 0 := by
    rw [R.res]; split
    · simp [*]
    · simp [*]
  generalize hT : (2 ^ F.f + M) * 2 ^ G.f / 2 ^ F.f = T at *
  have hcases := R.cases
  rw [hT] at hcases
  have hrep : (∃ d, G.mag d * 2 ^ (F.bias + F.f) = F.mag (F.enc s x m) * 2 ^ (G.bias + G.f)) → r = .success := by
    rintro ⟨d, hd⟩
    rw [hsucc, ← hex]
    exact exact_of_rep (by omega) (Or.inr hge) hlo hhi hd
  refine ⟨_, hcast, hnum, hneg, ?_, ?_, hrep, ?_⟩
  rotate_left
  · rw [hmag]
    have := Nat.mul_pos (show 0 < 2 ^ G.f + sig by have := two_pow_pos G.f; omega) (two_pow_pos k)
    omega
  rotate_left
  · rw [hsucc, hval _ hneg, hmag, Nat.mul_assoc, ← hex]
    rcases hcases with ⟨_, _, h⟩ | ⟨hne, _, h⟩
    · rw [h]; exact eq_comm
    · rw [hex]
      constructor
      · exact fun h => absurd h hne
      · intro h'
        rw [← h'] at hlo hhi
        rcases h with ⟨_, h⟩ | ⟨_, h, h''⟩
        · rw [h, Nat.add_mul] at hhi; omega
        · subst h
          have := Nat.le_of_mul_le_mul_right hlo hU
          have := two_pow_pos G.f
          omega
  · rcases hcases with ⟨hno, _, h⟩ | ⟨hne, ha, ⟨_, h⟩ | ⟨hcar, h, h'⟩⟩
    · left
      refine rounds_of_bracket hnum S.neg_iff hneg rfl rfl hX (by omega) (Or.inr hge) hlo hhi (Or.inl ⟨?_, ?_, ?_⟩)
      · rw [hmag, h, Nat.mul_assoc]
      · rcases hno with h | h
        · exact Or.inl (hex.2 h)
        · exact Or.inr (fun hh => h (haw.2 hh))
      · rw [hpar]; omega
    · left
      refine rounds_of_bracket hnum S.neg_iff hneg rfl rfl hX (by omega) (Or.inr hge) hlo hhi
        (Or.inr ⟨?_, fun hh => hne (hex.1 hh), haw.1 ha, ?_⟩)
      · rw [hmag, h, Nat.mul_assoc, Nat.add_mul, Nat.one_mul]
      · rw [hpar]; omega
    · right
      subst h
      have h2' : k + 1 < 2 ^ G.e - 1 := by rw [hcar] at h2; simp only [if_true] at h2; omega
      have hz := two_pow_pos G.f
      have hmag' := enc_mag (F := G) hs (show k + 1 < 2 ^ G.e by omega) hz
      rw [if_neg (by omega), Nat.max_eq_left (by omega)] at hmag'
      simp only [Nat.add_zero] at hmag'
      have hneg' := enc_neg (F := G) hs (show k + 1 < 2 ^ G.e by omega) hz
      have e : 2 ^ G.f * 2 ^ (k + 1) * 2 ^ (F.bias + F.f) = T * (2 ^ k * 2 ^ (F.bias + F.f)) + 2 ^ k * 2 ^ (F.bias + F.f) := by
        have : T * (2 ^ k * 2 ^ (F.bias + F.f)) + 2 ^ k * 2 ^ (F.bias + F.f) = (T + 1) * (2 ^ k * 2 ^ (F.bias + F.f)) := by
          rw [Nat.add_mul, Nat.one_mul]
        rw [this, h', Nat.pow_succ]
        generalize 2 ^ G.f = a; generalize 2 ^ k = b; generalize 2 ^ (F.bias + F.f) = c; grind
      refine ⟨G.enc s (k + 1) 0, ?_, enc_fracField hs (by omega) hz, ?_, hcar, ?_⟩
      · refine rounds_of_bracket (enc_num hs (by omega) hz h2') S.neg_iff hneg' rfl rfl hX (by omega) (Or.inr hge) hlo hhi
          (Or.inr ⟨?_, fun hh => hne (hex.1 hh), haw.1 ha, ?_⟩)
        · rw [hmag', e]
        · rw [enc_parity hG hs (by omega) hz]; omega
      · unfold Fmt.val
        simp only [hneg, hneg', hmag, hmag', Nat.add_zero]
        rw [Nat.pow_succ]
        push_cast
        have key : ∀ a b c σ : Rat, σ * (a * (b * 2)) / c = 2 * (σ * (a * b) / c) := by intro a b c σ; grind
        exact key ..
      · rw [hmag', e]; exact hhi

/-- Subnormal results -/
theorem Src.denorm (dir : Dir) {sig carry r} (R : RoundedTo F G dir s (F.enc s x m) M sig carry r)
    (h1 : E + G.bias ≤ 0) :
    ∃ c r', castTo F G dir (F.enc s x m) = some (c, r') ∧ G.Num c ∧ (G.neg c ↔ s = 1) ∧
      (r' = .success ↔ G.val c = F.val (F.enc s x m)) ∧ (r' = .success → Rounds G dir (F.val (F.enc s x m)) c) ∧
      ((∀ t r d, ¬ Away dir (s = 1) t r d) → Rounds G dir (F.val (F.enc s x m)) c) ∧
      (G.mag c = 0 → F.mag (F.enc s x m) * 2 ^ (G.bias + G.f) < 2 * 2 ^ (F.bias + F.f)) ∧
      ((∃ d, G.mag d * 2 ^ (F.bias + F.f) = F.mag (F.enc s x m) * 2 ^ (G.bias + G.f)) → r' = .success) := by
  have hG := S.hG; have hs := S.hs
  have hE : E ≤ G.bias := by omega
  obtain ⟨h, hh⟩ : ∃ h : Nat, 1 - G.bias - E = h := ⟨(1 - G.bias - E).toNat, by omega⟩
  have hh' : (1 - G.bias - E).toNat = h := by omega
  have hgt : ¬ (E + (if carry = true then 1 else 0) > (G.bias : Int)) := by
    have := hG.bias_pos; split <;> omega
  have hcast := castTo_split S.hF S.hG S.hs S.hx S.hm S.hN dir S.h0 S.num S.comp R
  rw [if_neg hgt, S.wrapE hE] at hcast
  obtain ⟨g, hg, hgeq, hset⟩ := setFrom_denorm hG hs R.lt
    (if s = 1 then decide (dir = .toNegInf) else decide (dir = .toPosInf)) h1
  rw [hset] at hcast
  rw [hh'] at hcast hgeq
  dsimp only at hcast
  have hy := two_pow_pos G.e
  have hy1 : 0 < 2 ^ G.e - 1 := by
    have := Nat.one_lt_two_pow (n := G.e) (by have := hG.e_pos; omega); omega
  have hnum := enc_num hs hy hg hy1
  have hneg := enc_neg hs hy hg
  have hmag := enc_mag hs hy hg
  rw [if_pos rfl, Nat.max_eq_right (by omega)] at hmag
  have hpar := enc_parity hG hs hy hg
  obtain ⟨hX, hU, hlo, hhi, hex, _⟩ := S.bracket (k := 1) (h := h) (by omega)
  have hge := S.trunc_ge
  have hval : G.val (G.enc s 0 g) = F.val (F.enc s x m) ↔
      g * (2 ^ 1 * 2 ^ (F.bias + F.f)) = F.mag (F.enc s x m) * 2 ^ (G.bias + G.f) := by
    rw [val_q F _ _ (two_pow_pos (G.bias + G.f)), val_q' G _ _ (two_pow_pos (F.bias + F.f)),
      q_inj (Nat.mul_pos (two_pow_pos _) (two_pow_pos _)), hmag, Nat.mul_assoc]
    unfold sg
    simp only [hneg, S.neg_iff]
    split <;> omega
  have hmod := Nat.mod_mul (x := (2 ^ F.f + M) * 2 ^ G.f) (a := 2 ^ F.f) (b := 2 ^ h)
  have hdiv := Nat.div_div_eq_div_mul ((2 ^ F.f + M) * 2 ^ G.f) (2 ^ F.f) (2 ^ h)
  have hcases := R.cases
  have hres := R.res
  have hlt := R.lt
  have hD := two_pow_pos F.f
  have hGf := two_pow_pos G.f
  have hH := two_pow_pos h
  have hrep : (∃ d, G.mag d * 2 ^ (F.bias + F.f) = F.mag (F.enc s x m) * 2 ^ (G.bias + G.f)) → _ :=
    fun ⟨d, hd⟩ => exact_of_rep (G := G) (by omega) (Or.inl rfl) hlo hhi hd
  generalize hN : (2 ^ F.f + M) * 2 ^ G.f = N at *
  generalize hT : N / (2 ^ F.f * 2 ^ h) = T at *
  generalize hUU : 2 ^ 1 * 2 ^ (F.bias + F.f) = U at *
  generalize hXX : F.mag (F.enc s x m) * 2 ^ (G.bias + G.f) = X at *
  have hgT : g * U = X → X = T * U := by
    intro hgX
    rw [← hgX] at hlo hhi
    have a1 := Nat.le_of_mul_le_mul_right hlo hU
    have a2 : g < T + 1 := by
      have : g * U < (T + 1) * U := by rw [Nat.add_mul, Nat.one_mul]; exact hhi
      exact Nat.lt_of_mul_lt_mul_right this
    rw [← hgX, Nat.le_antisymm (Nat.le_of_lt_succ a2) a1]
  have hexact : X = T * U → r = .success ∧ (2 ^ G.f + sig) % 2 ^ h = 0 ∧ g = T := by
    intro hXT
    have h0 := hex.1 hXT
    rw [hmod] at h0
    have hr0 : N % 2 ^ F.f = 0 := by
      have := Nat.zero_le (2 ^ F.f * (N / 2 ^ F.f % 2 ^ h)); omega
    have hq0 : N / 2 ^ F.f % 2 ^ h = 0 := by
      rw [hr0, Nat.zero_add] at h0
      rcases Nat.mul_eq_zero.1 h0 with h | h
      · omega
      · exact h
    rcases hcases with ⟨_, _, ht⟩ | ⟨hne, _⟩
    · refine ⟨by rw [hres, if_pos hr0], by rw [ht]; exact hq0, ?_⟩
      have hT0 : T ≠ 0 := by rintro rfl; omega
      rw [ht, hdiv] at hgeq
      rw [hgeq, if_neg (fun hc => hT0 hc.1)]
    · exact absurd hr0 hne
  have hiff : ((if (2 ^ G.f + sig) % 2 ^ h ≠ 0 then CastResult.lostPrecision else CastResult.success).max r = .success) ↔
      X = T * U := by
    constructor
    · intro hm
      have h2 : r = .success ∧ (2 ^ G.f + sig) % 2 ^ h = 0 := by
        constructor
        · revert hm
          rw [hres]
          by_cases h3 : N % 2 ^ F.f = 0 <;> by_cases h4 : (2 ^ G.f + sig) % 2 ^ h = 0 <;> simp [h3, h4, CastResult.max]
        · revert hm
          rw [hres]
          by_cases h3 : N % 2 ^ F.f = 0 <;> by_cases h4 : (2 ^ G.f + sig) % 2 ^ h = 0 <;> simp [h3, h4, CastResult.max]
      have hr0 : N % 2 ^ F.f = 0 := by
        have := h2.1; rw [hres] at this
        by_cases h3 : N % 2 ^ F.f = 0
        · exact h3
        · rw [if_neg h3] at this; cases this
      rw [hex, hmod, hr0]
      rcases hcases with ⟨_, _, ht⟩ | ⟨hne, _⟩
      · rw [← ht, h2.2]; omega
      · exact absurd hr0 hne
    · intro hXT
      obtain ⟨e1, e2, _⟩ := hexact hXT
      rw [e1, if_neg (fun h => h e2)]; rfl
  have hRex : X = T * U → Rounds G dir (F.val (F.enc s x m)) (G.enc s 0 g) := by
    intro hXT
    obtain ⟨_, _, rfl⟩ := hexact hXT
    refine rounds_of_bracket hnum S.neg_iff hneg hXX hUU hX (by omega) (Or.inl rfl) hlo hhi (Or.inl ⟨?_, Or.inl hXT, hpar⟩)
    rw [hmag, Nat.mul_assoc, hUU]
  refine ⟨_, _, hcast, hnum, hneg, ?_, ?_, ?_, ?_, fun h => hiff.2 (hrep h)⟩
  · rw [hiff, hval]
    constructor
    · intro hXT
      obtain ⟨_, _, rfl⟩ := hexact hXT
      exact hXT.symm
    · exact hgT
  · intro h; exact hRex (hiff.1 h)
  · intro hdir
    have hup : ¬ ((if s = 1 then decide (dir = .toNegInf) else decide (dir = .toPosInf)) = true) := by
      intro hup
      by_cases h1 : s = 1
      · rw [if_pos h1, decide_eq_true_eq] at hup
        subst hup
        exact hdir 0 0 0 h1
      · rw [if_neg h1, decide_eq_true_eq] at hup
        subst hup
        exact hdir 0 0 0 h1
    rcases hcases with ⟨_, _, ht⟩ | ⟨_, ha, _⟩
    · rw [ht, hdiv, if_neg (fun hc => hup hc.2)] at hgeq
      subst hgeq
      refine rounds_of_bracket hnum S.neg_iff hneg hXX hUU hX (by omega) (Or.inl rfl) hlo hhi
        (Or.inl ⟨?_, Or.inr (hdir _ _ _), hpar⟩)
      rw [hmag, Nat.mul_assoc, hUU]
    · exact absurd ha (hdir _ _ _)
  · intro hm0
    rw [hmag] at hm0
    have hg0 : g = 0 := by omega
    have ht0 : (2 ^ G.f + sig) / 2 ^ h = 0 := by
      rw [hg0] at hgeq
      by_cases hc : (2 ^ G.f + sig) / 2 ^ h = 0
      · exact hc
      · rw [if_neg (fun hh => hc hh.1)] at hgeq; exact absurd hgeq.symm hc
    have ht1 : 2 ^ G.f + sig < 2 ^ h := by
      rcases Nat.lt_or_ge (2 ^ G.f + sig) (2 ^ h) with h2 | h2
      · exact h2
      · have := Nat.div_pos h2 hH; omega
    have hT0 : T = 0 := by
      rw [← hdiv]
      apply Nat.div_eq_of_lt
      rcases hcases with ⟨_, _, ht⟩ | ⟨_, _, ⟨_, ht⟩ | ⟨_, hs0, ht⟩⟩
      · omega
      · omega
      · have h3 : 2 ^ G.f < 2 ^ h := by omega
        have h4 : G.f < h := (Nat.pow_lt_pow_iff_right (by decide)).1 h3
        have h5 : 2 ^ (G.f + 1) ≤ 2 ^ h := Nat.pow_le_pow_right (by decide) h4
        rw [Nat.pow_succ] at h5
        omega
    rw [hT0, Nat.zero_mul, Nat.zero_add] at hhi
    exact hhi

end

end Verif.HexFloat
