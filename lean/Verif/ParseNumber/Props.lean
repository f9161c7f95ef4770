import Verif.ParseNumber.Range
/-
C08: integer literals are encoded exactly or rejected.
-/
set_option linter.unusedSimpArgs false
set_option linter.unusedVariables false
namespace Verif.ParseNumber
open Spec

theorem numeral_head {s : Text} {h : Bool} {n : Nat} (hn : Numeral s h n) :
    ∃ c r, s = c :: r ∧ c ≠ '-' ∧ c ≠ '+' ∧ isSpace c = false := by
  have key : ∀ d, d < 10 → (let c := Nat.digitChar d; c ≠ '-' ∧ c ≠ '+' ∧ isSpace c = false) ∧
     (let c := (Nat.digitChar d).toUpper; c ≠ '-' ∧ c ≠ '+' ∧ isSpace c = false) := by decide
  cases hn with
  | hex => exact ⟨_, _, rfl, by decide, by decide, by decide⟩
  | octal => exact ⟨_, _, rfl, by decide, by decide, by decide⟩
  | decimal hd =>
    cases hd with
    | cons h1 _ =>
      refine ⟨_, _, rfl, ?_⟩
      rcases h1.2 with rfl | rfl
      · exact (key _ h1.1).1
      · exact (key _ h1.1).2

theorem numeral_functional {s : Text} {h h' : Bool} {n n' : Nat} (hn : Numeral s h n)
    (hn' : Numeral s h' n') : n = n' := by
  have e1 := (readNumeral_iff (max := 16 + n + n') (by omega) s n).mpr ⟨⟨h, hn⟩, by omega⟩
  have e2 := (readNumeral_iff (max := 16 + n + n') (by omega) s n').mpr ⟨⟨h', hn'⟩, by omega⟩
  rw [e1] at e2
  exact Option.some.inj e2

/-- The code's test for hexadecimal text. -/
theorem numeral_hex {s : Text} {h : Bool} {n : Nat} (hn : Numeral s h n) :
    (s.head? = some '0' ∧ (s[1]? = some 'x' ∨ s[1]? = some 'X')) ↔ h = true := by
  cases hn with
  | hex hx => simp [hx]
  | @octal s ds hd =>
    have e1 : digit 8 'x' = none := by decide
    have e2 : digit 8 'X' = none := by decide
    constructor
    · rintro ⟨-, h⟩
      cases s with
      | nil => simp at h
      | cons c s =>
        obtain ⟨d, hd, _⟩ := digits_head (by omega) hd
        simp only [List.getElem?_cons_succ, List.getElem?_cons_zero, Option.some.injEq] at h
        rcases h with rfl | rfl
        · rw [e1] at hd; cases hd
        · rw [e2] at hd; cases hd
    · intro h; cases h
  | decimal hd hne =>
    cases hd with
    | @cons c d s ds h1 _ =>
      constructor
      · rintro ⟨h, -⟩
        simp only [List.head?_cons, Option.some.injEq] at h
        subst h
        have e0 : digit 10 '0' = some 0 := by decide
        rw [(digit_iff (by omega) _ _).mpr h1] at e0
        cases e0
        exact absurd rfl hne
      · intro h; cases h

theorem dropSpace {text : Text} (h : ∀ c, text.head? = some c → isSpace c = false) :
    text.dropWhile isSpace = text := by
  cases text with
  | nil => rfl
  | cons c s => rw [List.dropWhile_cons, h c rfl]; rfl

/-- `ParseNumber<T>` accepts exactly the texts which denote an integer the type
    can represent, and returns that integer: for decimal, octal and hexadecimal
    text with or without sign.  (The text must not begin with white space; see
    `parseNumber_space`.) -/
theorem parseNumber_spec (t : IntT) (ht : 8 ≤ t.bits) (text : Text)
    (hsp : ∀ c, text.head? = some c → isSpace c = false) (v : Int) :
    parseNumber t text = some v ↔ IntegerText text v ∧ Representable t.bits t.signed v := by
  have hge : 128 ≤ 2 ^ (t.bits - 1) := Nat.pow_le_pow_right (n := 2) (by omega) (by omega : 7 ≤ t.bits - 1)
  have hhalf := pow_half (w := t.bits) (by omega)
  have hc1 : ((2 : Int) ^ (t.bits - 1)) = ((2 ^ (t.bits - 1) : Nat) : Int) := by norm_cast
  have hc2 : ((2 : Int) ^ t.bits) = ((2 ^ t.bits : Nat) : Int) := by norm_cast
  have hmag : ∀ neg, 16 ≤ t.magnitude neg := by
    intro neg
    unfold IntT.magnitude IntT.max
    split
    · omega
    · split <;> omega
  have hgood := streamRead_good t text
  rw [dropSpace hsp] at hgood
  have hpn : parseNumber t text = some v ↔ streamRead t text = ⟨v, false, true⟩ ∧
      ¬ (text.head? = some '-' ∧ t.signed = false ∧ v ≠ 0) := by
    unfold parseNumber
    simp only
    constructor
    · intro h
      split at h
      · rename_i hc
        split at h
        · cases h
        · rename_i hc2
          cases h
          refine ⟨?_, hc2⟩
          obtain ⟨_, h1, h2⟩ := hc
          generalize streamRead t text = r at h1 h2 ⊢
          cases r; cases h1; cases h2; rfl
      · cases h
    · rintro ⟨h, h2⟩
      rw [h]
      have hne : text ≠ [] := by
        rintro rfl
        have : (streamRead t []).fail = true := rfl
        rw [h] at this
        cases this
      simp only [hne, ne_eq, not_false_eq_true, and_self, if_true]
      rw [if_neg h2]
  rw [hpn, hgood]
  rcases readSign_cases text with ⟨r, rfl, hs⟩ | ⟨r, rfl, hs⟩ | ⟨h1, h2, hs⟩
  · rw [hs]
    simp only [if_true]
    constructor
    · rintro ⟨⟨n, hn, hv⟩, hneg⟩
      obtain ⟨⟨h, hn⟩, hle⟩ := (readNumeral_iff (hmag _) _ _).mp hn
      by_cases hsg : t.signed = true
      · simp only [hsg, if_true] at hv
        subst hv
        refine ⟨.minus hn, ?_⟩
        simp only [Representable, hsg, if_true, hc1]
        simp only [IntT.magnitude, hsg, Bool.and_self, if_true] at hle
        omega
      · have hsf : t.signed = false := by simpa using hsg
        simp only [IntT.magnitude, hsf, Bool.and_false, Bool.false_eq_true, if_false, IntT.max] at hle hv
        have hv0 : v = 0 := by
          have := hneg
          simp only [List.head?_cons, hsf, true_and, ne_eq, Decidable.not_not] at this
          exact this
        have hn0 : n = 0 := by
          rw [hv0] at hv
          by_cases h0 : n = 0
          · exact h0
          · rw [Nat.mod_eq_of_lt (by omega)] at hv
            omega
        subst hn0
        subst hv0
        refine ⟨.minus hn, ?_⟩
        simp only [Representable, hsf, Bool.false_eq_true, if_false, hc2]
        omega
    · rintro ⟨hi, hrep⟩
      cases hi with
      | plain hn => obtain ⟨c, r, he, h1, _⟩ := numeral_head hn; cases he; exact absurd rfl h1
      | @minus _ h n hn =>
        by_cases hsg : t.signed = true
        · simp only [Representable, hsg, if_true, hc1] at hrep
          refine ⟨⟨n, (readNumeral_iff (hmag _) _ _).mpr ⟨⟨_, hn⟩, ?_⟩, ?_⟩, ?_⟩
          · simp only [IntT.magnitude, hsg, Bool.and_self, if_true]; omega
          · simp only [hsg, if_true]
          · simp [hsg]
        · have hsf : t.signed = false := by simpa using hsg
          simp only [Representable, hsf, Bool.false_eq_true, if_false, hc2] at hrep
          have hn0 : n = 0 := by omega
          subst hn0
          refine ⟨⟨0, (readNumeral_iff (hmag _) _ _).mpr ⟨⟨_, hn⟩, by omega⟩, ?_⟩, ?_⟩
          · simp [hsf]
          · simp
  · rw [hs]
    simp only [Bool.false_eq_true, if_false]
    constructor
    · rintro ⟨⟨n, hn, hv⟩, -⟩
      obtain ⟨⟨h, hn⟩, hle⟩ := (readNumeral_iff (hmag _) _ _).mp hn
      subst hv
      refine ⟨.plus hn, ?_⟩
      unfold Representable
      simp only [IntT.magnitude, Bool.false_and, Bool.false_eq_true, if_false, IntT.max, hc1, hc2] at hle ⊢
      cases hsg : t.signed <;> simp only [hsg, Bool.false_eq_true, if_true, if_false] at hle ⊢ <;> omega
    · rintro ⟨hi, hrep⟩
      cases hi with
      | plain hn => obtain ⟨c, r, he, _, h1, _⟩ := numeral_head hn; cases he; exact absurd rfl h1
      | @plus _ h n hn =>
        refine ⟨⟨n, (readNumeral_iff (hmag _) _ _).mpr ⟨⟨_, hn⟩, ?_⟩, rfl⟩, by simp⟩
        unfold Representable at hrep
        simp only [IntT.magnitude, Bool.false_and, Bool.false_eq_true, if_false, IntT.max, hc1, hc2] at hrep ⊢
        cases hsg : t.signed <;> simp only [hsg, Bool.false_eq_true, if_true, if_false] at hrep ⊢ <;> omega
  · rw [hs]
    simp only [Bool.false_eq_true, if_false]
    constructor
    · rintro ⟨⟨n, hn, hv⟩, -⟩
      obtain ⟨⟨h, hn⟩, hle⟩ := (readNumeral_iff (hmag _) _ _).mp hn
      subst hv
      refine ⟨.plain hn, ?_⟩
      unfold Representable
      simp only [IntT.magnitude, Bool.false_and, Bool.false_eq_true, if_false, IntT.max, hc1, hc2] at hle ⊢
      cases hsg : t.signed <;> simp only [hsg, Bool.false_eq_true, if_true, if_false] at hle ⊢ <;> omega
    · rintro ⟨hi, hrep⟩
      cases hi with
      | plus => exact absurd rfl h2
      | minus => exact absurd rfl h1
      | @plain _ h n hn =>
        refine ⟨⟨n, (readNumeral_iff (hmag _) _ _).mpr ⟨⟨_, hn⟩, ?_⟩, rfl⟩, by simp [h1]⟩
        unfold Representable at hrep
        simp only [IntT.magnitude, Bool.false_and, Bool.false_eq_true, if_false, IntT.max, hc1, hc2] at hrep ⊢
        cases hsg : t.signed <;> simp only [hsg, Bool.false_eq_true, if_true, if_false] at hrep ⊢ <;> omega

/-- Texts which denote an integer denote only one. -/
theorem integerText_functional {text : Text} {v v' : Int} (h : IntegerText text v)
    (h' : IntegerText text v') : v = v' := by
  cases h with
  | plain hn =>
    obtain ⟨c, r, rfl, h1, h2, _⟩ := numeral_head hn
    cases h' with
    | plain hn' => rw [numeral_functional hn hn']
    | plus => exact absurd rfl h2
    | minus => exact absurd rfl h1
  | plus hn =>
    cases h' with
    | plain hn' => obtain ⟨c, r, he, h1, h2, _⟩ := numeral_head hn'; cases he; exact absurd rfl h2
    | plus hn' => rw [numeral_functional hn hn']
  | minus hn =>
    cases h' with
    | plain hn' => obtain ⟨c, r, he, h1, h2, _⟩ := numeral_head hn'; cases he; exact absurd rfl h1
    | minus hn' => rw [numeral_functional hn hn']

/-- The number type of an integer type of `w` bits. -/
def intType (w : Nat) (signed : Bool) : NumberType :=
  ⟨w, if signed then .signedInt else .unsignedInt⟩

/-- C08.  For every text and every integer type of 1 to 64 bits,
    `ParseAndEncodeIntegerNumber` succeeds exactly if the text is a literal of the
    type, and then emits exactly the words of the value. -/
theorem encodeInteger_spec (w : Nat) (hw : 1 ≤ w ∧ w ≤ 64) (signed : Bool) (text : Text)
    (hsp : ∀ c, text.head? = some c → isSpace c = false) (ws : List (BitVec 32)) :
    encodeInteger (some text) (intType w signed) = (.success, ws) ↔
      ∃ v, Literal w signed text v ∧ ws = words w v := by
  obtain ⟨h1, h64⟩ := hw
  have hint : (intType w signed).isIntegral = true := by cases signed <;> rfl
  have hsgn : (intType w signed).isSigned = signed := by cases signed <;> rfl
  have habw : (intType w signed).assumedBitWidth = w := by cases signed <;> rfl
  have hle1 : 2 ^ (w - 1) ≤ 2 ^ 63 := Nat.pow_le_pow_right (by omega) (by omega)
  have hle2 : 2 ^ w ≤ 2 ^ 64 := Nat.pow_le_pow_right (by omega) (by omega)
  have hhalf := pow_half h1
  have hp := pow_pos (w - 1)
  have hc1 : ((2 : Int) ^ (w - 1)) = ((2 ^ (w - 1) : Nat) : Int) := by norm_cast
  have hc2 : ((2 : Int) ^ w) = ((2 ^ w : Nat) : Int) := by norm_cast
  simp only [Nat.reducePow] at hle1 hle2
  have hw64 : ¬ 64 < w := by omega
  unfold encodeInteger
  simp only [hint, hsgn, habw, Bool.true_eq_false, if_false, hw64]
  by_cases hneg : text.head? = some '-'
  · -- minus sign
    simp only [hneg, true_and, if_true]
    cases signed with
    | false =>
      simp only [if_true, Prod.mk.injEq, reduceCtorEq, false_and, false_iff]
      rintro ⟨v, hl, -⟩
      cases hl with
      | number hn => obtain ⟨c, r, rfl, h1, _⟩ := numeral_head hn; exact h1 (by simpa using hneg)
      | pattern hn => obtain ⟨c, r, rfl, h1, _⟩ := numeral_head hn; exact h1 (by simpa using hneg)
      | plus => cases hneg
      | minus _ hs => cases hs
    | true =>
      have hhex : ¬ (some '-' = some '0' ∧ (text[1]? = some 'x' ∨ text[1]? = some 'X')) := by
        rintro ⟨h, -⟩; cases h
      simp only [Bool.true_eq_false, if_false, hhex, decide_false]
      have hspec := parseNumber_spec i64 (by decide) text hsp
      have hcheck : ∀ n : Nat, n ≤ 2 ^ 63 →
          checkRange (decide (-(n : Int) < 0)) (BitVec.ofInt 64 (-(n : Int))) (intType w true) false =
            if n ≤ 2 ^ (w - 1) then some (BitVec.ofInt 64 (-(n : Int))) else none := by
        intro n hn
        by_cases h0 : 0 < n
        · rw [show decide (-(n : Int) < 0) = true by simp; omega]
          exact checkRange_neg h64 h1 n h0 hn
        · have : n = 0 := by omega
          subst this
          have := checkRange_nonneg h64 h1 true false 0 (by decide)
          simp only [if_true, Bool.false_eq_true, if_false] at this
          rw [if_pos (by omega)] at this
          rw [if_pos (by omega)]
          exact this
      constructor
      · intro h
        cases hpn : parseNumber i64 text with
        | none => rw [hpn] at h; simp at h
        | some value =>
          rw [hpn] at h
          obtain ⟨hi, hrep⟩ := (hspec value).mp hpn
          cases hi with
          | plain hn => obtain ⟨c, r, rfl, h1, _⟩ := numeral_head hn; exact absurd (by simpa using hneg) h1
          | plus => cases hneg
          | @minus s hh n hn =>
            simp only [Representable, i64, if_true, Nat.reduceSub, Int.reducePow] at hrep
            simp only [hcheck n (by simp only [Nat.reducePow]; omega)] at h
            by_cases hle : n ≤ 2 ^ (w - 1)
            · simp only [hle, if_true, Prod.mk.injEq, true_and] at h
              refine ⟨-(n : Int), .minus hn rfl ?_, ?_⟩
              · simp only [Representable, if_true, hc1]; omega
              · rw [← h, emitWords_eq]
            · simp [hle] at h
      · rintro ⟨v, hl, rfl⟩
        cases hl with
        | number hn => obtain ⟨c, r, rfl, h1, _⟩ := numeral_head hn; exact absurd (by simpa using hneg) h1
        | pattern hn => obtain ⟨c, r, rfl, h1, _⟩ := numeral_head hn; exact absurd (by simpa using hneg) h1
        | plus => cases hneg
        | @minus s hh n hn _ hrep =>
          simp only [Representable, if_true, hc1] at hrep
          have hpn := (hspec (-(n : Int))).mpr ⟨.minus hn, by
            simp only [Representable, i64, if_true, Nat.reduceSub, Int.reducePow]; omega⟩
          rw [hpn]
          simp only [hcheck n (by simp only [Nat.reducePow]; omega)]
          rw [if_pos (by omega)]
          simp only [emitWords_eq]
  · -- no minus sign
    simp only [hneg, false_and, if_false]
    have hspec := parseNumber_spec u64 (by decide) text hsp
    have hcheck : ∀ (n : Nat) (hx : Bool), n < 2 ^ 64 → checkRange (decide ((n : Int) < 0)) (BitVec.ofInt 64 (n : Int))
        (intType w signed) hx =
      if hx then (if n < 2 ^ w then some (BitVec.ofInt 64 (ofPattern w signed n)) else none)
      else (if n < 2 ^ (if signed then w - 1 else w) then some (BitVec.ofInt 64 n) else none) := by
      intro n hx hn
      rw [show decide ((n : Int) < 0) = false by simp]
      exact checkRange_nonneg h64 h1 signed hx n hn
    have hrepr : ∀ n : Nat, Representable w signed n ↔ n < 2 ^ (if signed then w - 1 else w) := by
      intro n
      unfold Representable
      cases signed
      · simp only [Bool.false_eq_true, if_false, hc2]; omega
      · simp only [if_true, hc1]; omega
    have hlt64 : ∀ n : Nat, Representable w signed n → n < 18446744073709551616 := by
      intro n h
      rw [hrepr] at h
      cases signed <;> simp only [Bool.false_eq_true, if_false, if_true] at h <;> omega
    have hrep64 : ∀ n : Nat, Representable u64.bits u64.signed n ↔ n < 18446744073709551616 := by
      intro n
      simp only [Representable, u64, Bool.false_eq_true, if_false, Int.reducePow]
      omega
    constructor
    · intro h
      cases hpn : parseNumber u64 text with
      | none => rw [hpn] at h; simp at h
      | some value =>
        rw [hpn] at h
        obtain ⟨hi, hrep⟩ := (hspec value).mp hpn
        cases hi with
        | minus => exact absurd rfl hneg
        | @plus s hh n hn =>
          have hhex : ¬ (('+' :: s).head? = some '0' ∧ (('+' :: s)[1]? = some 'x' ∨ ('+' :: s)[1]? = some 'X')) := by
            rintro ⟨h, -⟩; cases h
          simp only [hhex, decide_false] at h
          simp only [hcheck n false ((hrep64 n).mp hrep), Bool.false_eq_true, if_false] at h
          by_cases hlt : n < 2 ^ (if signed then w - 1 else w)
          · rw [if_pos hlt] at h
            simp only [Prod.mk.injEq, true_and] at h
            exact ⟨n, .plus hn ((hrepr n).mpr hlt), by rw [← h, emitWords_eq]⟩
          · rw [if_neg hlt] at h
            simp at h
        | @plain s hh n hn =>
          have hhex := numeral_hex hn
          simp only [hhex] at h
          simp only [hcheck n _ ((hrep64 n).mp hrep)] at h
          cases hh with
          | true =>
            simp only [decide_true, if_true] at h
            by_cases hlt : n < 2 ^ w
            · rw [if_pos hlt] at h
              simp only [Prod.mk.injEq, true_and] at h
              exact ⟨_, .pattern hn hlt, by rw [← h, emitWords_eq]⟩
            · rw [if_neg hlt] at h
              simp at h
          | false =>
            simp only [Bool.false_eq_true, decide_false, if_false] at h
            by_cases hlt : n < 2 ^ (if signed then w - 1 else w)
            · rw [if_pos hlt] at h
              simp only [Prod.mk.injEq, true_and] at h
              exact ⟨n, .number hn ((hrepr n).mpr hlt), by rw [← h, emitWords_eq]⟩
            · rw [if_neg hlt] at h
              simp at h
    · rintro ⟨v, hl, rfl⟩
      cases hl with
      | minus => exact absurd rfl hneg
      | @plus s hh n hn hrep =>
        have hhex : ¬ (('+' :: s).head? = some '0' ∧ (('+' :: s)[1]? = some 'x' ∨ ('+' :: s)[1]? = some 'X')) := by
          rintro ⟨h, -⟩; cases h
        have hlt := hlt64 n hrep
        rw [(hspec n).mpr ⟨.plus hn, (hrep64 n).mpr hlt⟩]
        simp only [hhex, decide_false]
        simp only [hcheck n _ hlt, Bool.false_eq_true, if_false]
        rw [if_pos ((hrepr n).mp hrep)]
        simp only [emitWords_eq]
      | @number s n hn hrep =>
        have hhex := numeral_hex hn
        have hlt := hlt64 n hrep
        rw [(hspec n).mpr ⟨.plain hn, (hrep64 n).mpr hlt⟩]
        simp only [hhex, decide_false]
        simp only [hcheck n _ hlt, Bool.false_eq_true, decide_false, if_false]
        rw [if_pos ((hrepr n).mp hrep)]
        simp only [emitWords_eq]
      | @pattern s n hn hlt =>
        have hhex := numeral_hex hn
        have hlt' : n < 18446744073709551616 := by omega
        rw [(hspec n).mpr ⟨.plain hn, (hrep64 n).mpr hlt'⟩]
        simp only [hhex, decide_true]
        simp only [hcheck n _ hlt', if_true]
        rw [if_pos hlt]
        simp only [emitWords_eq]

/-- A text is a literal of a type for at most one value. -/
theorem literal_functional {w : Nat} {signed : Bool} {text : Text} {v v' : Int}
    (h : Literal w signed text v) (h' : Literal w signed text v') : v = v' := by
  have hxc : ∀ {s : Text} {n m}, Numeral s false n → Numeral s true m → False := by
    intro s n m h1 h2
    have := (numeral_hex h1).mp ((numeral_hex h2).mpr rfl)
    cases this
  have hsg : ∀ {s : Text} {hh n} {c}, Numeral (c :: s) hh n → c = '+' ∨ c = '-' → False := by
    intro s hh n c h1 h2
    obtain ⟨_, _, he, h3, h4, _⟩ := numeral_head h1
    cases he
    rcases h2 with rfl | rfl
    · exact h4 rfl
    · exact h3 rfl
  cases h with
  | number hn =>
    cases h' with
    | number hn' => rw [numeral_functional hn hn']
    | pattern hn' => exact (hxc hn hn').elim
    | plus => exact (hsg hn (.inl rfl)).elim
    | minus => exact (hsg hn (.inr rfl)).elim
  | pattern hn =>
    cases h' with
    | number hn' => exact (hxc hn' hn).elim
    | pattern hn' => rw [numeral_functional hn hn']
    | plus => exact (hsg hn (.inl rfl)).elim
    | minus => exact (hsg hn (.inr rfl)).elim
  | plus hn =>
    cases h' with
    | number hn' => exact (hsg hn' (.inl rfl)).elim
    | pattern hn' => exact (hsg hn' (.inl rfl)).elim
    | plus hn' => rw [numeral_functional hn hn']
  | minus hn =>
    cases h' with
    | number hn' => exact (hsg hn' (.inr rfl)).elim
    | pattern hn' => exact (hsg hn' (.inr rfl)).elim
    | minus hn' => rw [numeral_functional hn hn']

/-- When it does not succeed, nothing is emitted. -/
theorem encodeInteger_fail (text : Option Text) (type : NumberType) (st : Status)
    (ws : List (BitVec 32)) (h : encodeInteger text type = (st, ws)) (hst : st ≠ .success) :
    ws = [] := by
  unfold encodeInteger at h
  split at h
  · cases h; rfl
  · simp only at h
    repeat (split at h; · cases h; rfl)
    cases h; exact absurd rfl hst

/-- Why a text is rejected: wrong kind of type, too wide a type, a minus sign
    for an unsigned type, and everything else is an invalid text. -/
theorem encodeInteger_status (text : Text) (type : NumberType) :
    ((encodeInteger (some text) type).1 = .unsupported ↔
      type.isIntegral = true ∧ 64 < type.bitwidth) ∧
    ((encodeInteger (some text) type).1 = .invalidUsage ↔
      type.isIntegral = false ∨
        (type.bitwidth ≤ 64 ∧ type.kind = .unsignedInt ∧ text.head? = some '-')) := by
  unfold encodeInteger
  obtain ⟨w, k⟩ := type
  simp only
  cases k with
  | none => simp [NumberType.isIntegral]
  | floating => simp [NumberType.isIntegral]
  | unsignedInt =>
    have e1 : NumberType.isIntegral ⟨w, .unsignedInt⟩ = true := rfl
    have e2 : NumberType.isSigned ⟨w, .unsignedInt⟩ = false := rfl
    have e3 : NumberType.assumedBitWidth ⟨w, .unsignedInt⟩ = w := rfl
    simp only [e1, e2, e3, Bool.true_eq_false, if_false, and_true, true_and, false_or]
    by_cases hw : 64 < w
    · simp [hw]; omega
    · simp only [hw, if_false, iff_false]
      by_cases hm : text.head? = some '-'
      · simp [hm]; omega
      · simp only [hm, if_false, and_false, iff_false]
        constructor <;> (repeat' split) <;> simp
  | signedInt =>
    have e1 : NumberType.isIntegral ⟨w, .signedInt⟩ = true := rfl
    have e2 : NumberType.isSigned ⟨w, .signedInt⟩ = true := rfl
    have e3 : NumberType.assumedBitWidth ⟨w, .signedInt⟩ = w := rfl
    simp only [e1, e2, e3, Bool.true_eq_false, if_false, and_false, reduceCtorEq, false_and, and_false, or_self, true_and, iff_false]
    by_cases hw : 64 < w
    · simp [hw]
    · simp only [hw, if_false, iff_false]
      constructor <;> (repeat' split) <;> simp

/-! ### Text beginning with white space

The stream operator skips white space, but the tests for a minus sign and for
hexadecimal text look at the first character.  (The assembler never passes such
text; other callers can.) -/

theorem parseNumber_space :
    parseNumber u32 " -1".toList = some 4294967295 := by decide +kernel

theorem encodeInteger_space :
    encodeInteger (some " -5".toList) (intType 64 false) =
      (.success, [0xFFFFFFFB#32, 0xFFFFFFFF#32]) ∧
    encodeInteger (some " 0xff".toList) (intType 8 true) = (.invalidText, []) ∧
    encodeInteger (some "0xff".toList) (intType 8 true) = (.success, [0xFFFFFFFF#32]) := by
  decide +kernel

/-! ### Examples -/

example : Literal 16 true "-0x8000".toList (-32768) :=
  .minus (n := 32768) (h := true)
    (Numeral.hex (.inl rfl) (by decide)
      (.cons (d := 8) (by unfold IsDigit; decide) (.cons (d := 0) (by unfold IsDigit; decide)
        (.cons (d := 0) (by unfold IsDigit; decide) (.cons (d := 0) (by unfold IsDigit; decide) .nil)))))
    rfl (by simp [Representable])

example : encodeInteger (some "-0x8000".toList) (intType 16 true) = (.success, [0xFFFF8000#32]) := by
  decide +kernel
example : encodeInteger (some "-32769".toList) (intType 16 true) = (.invalidText, []) := by
  decide +kernel
example : encodeInteger (some "18446744073709551615".toList) (intType 64 false) =
    (.success, [0xFFFFFFFF#32, 0xFFFFFFFF#32]) := by decide +kernel
example : encodeInteger (some "18446744073709551616".toList) (intType 64 false) =
    (.invalidText, []) := by decide +kernel
example : encodeInteger (some "0x1FFFFFFFFF".toList) (intType 37 true) =
    (.success, [0xFFFFFFFF#32, 0xFFFFFFFF#32]) := by decide +kernel
example : encodeInteger (some "-0".toList) (intType 32 false) = (.invalidUsage, []) := by
  decide +kernel

end Verif.ParseNumber
