import Verif.ParseNumber.Spec
set_option linter.unusedSimpArgs false
set_option linter.unusedVariables false
namespace Verif.ParseNumber
open Spec

theorem char_cases {c : Char} (lo hi : Nat) (hlo : lo ≤ c.toNat) (hhi : c.toNat ≤ hi) :
    ∃ k, lo ≤ k ∧ k ≤ hi ∧ c = Char.ofNat k :=
  ⟨c.toNat, hlo, hhi, (Char.ofNat_toNat c).symm⟩

theorem char_le {a b : Char} : a ≤ b ↔ a.toNat ≤ b.toNat := by
  exact Iff.rfl

theorem digit_iff {base : Nat} (hb : base ≤ 16) (c : Char) (d : Nat) :
    digit base c = some d ↔ IsDigit base c d := by
  constructor
  · intro h
    simp only [digit, char_le] at h
    rw [Option.filter_eq_some_iff] at h
    obtain ⟨h, hd⟩ := h
    simp only [decide_eq_true_eq] at hd
    refine ⟨hd, ?_⟩
    split at h
    · rename_i hc
      obtain ⟨k, h1, h2, rfl⟩ := char_cases 48 57 hc.1 hc.2
      have : k = 48 ∨ k = 49 ∨ k = 50 ∨ k = 51 ∨ k = 52 ∨ k = 53 ∨ k = 54 ∨ k = 55 ∨ k = 56 ∨ k = 57 := by omega
      rcases this with rfl|rfl|rfl|rfl|rfl|rfl|rfl|rfl|rfl|rfl <;> (cases h; decide)
    · split at h
      · rename_i _ hc
        obtain ⟨k, h1, h2, rfl⟩ := char_cases 97 102 hc.1 hc.2
        have : k = 97 ∨ k = 98 ∨ k = 99 ∨ k = 100 ∨ k = 101 ∨ k = 102 := by omega
        rcases this with rfl|rfl|rfl|rfl|rfl|rfl <;> (cases h; decide)
      · split at h
        · rename_i _ _ hc
          obtain ⟨k, h1, h2, rfl⟩ := char_cases 65 70 hc.1 hc.2
          have : k = 65 ∨ k = 66 ∨ k = 67 ∨ k = 68 ∨ k = 69 ∨ k = 70 := by omega
          rcases this with rfl|rfl|rfl|rfl|rfl|rfl <;> (cases h; decide)
        · cases h
  · rintro ⟨hd, hc⟩
    have hx : d < 16 := by omega
    unfold digit
    rw [Option.filter_eq_some_iff]
    refine ⟨?_, by simpa using hd⟩
    clear hd
    have : ∀ d, d < 16 → ∀ c, c = Nat.digitChar d ∨ c = (Nat.digitChar d).toUpper →
      (if '0' ≤ c ∧ c ≤ '9' then some (c.toNat - '0'.toNat)
    else if 'a' ≤ c ∧ c ≤ 'f' then some (c.toNat - 'a'.toNat + 10)
    else if 'A' ≤ c ∧ c ≤ 'F' then some (c.toNat - 'A'.toNat + 10)
    else none) = some d := by
      intro d hd c hc
      have hh : (∀ d, d < 16 → (let c := Nat.digitChar d; (if '0' ≤ c ∧ c ≤ '9' then some (c.toNat - '0'.toNat)
    else if 'a' ≤ c ∧ c ≤ 'f' then some (c.toNat - 'a'.toNat + 10)
    else if 'A' ≤ c ∧ c ≤ 'F' then some (c.toNat - 'A'.toNat + 10)
    else none) = some d) ∧ (let c := (Nat.digitChar d).toUpper; (if '0' ≤ c ∧ c ≤ '9' then some (c.toNat - '0'.toNat)
    else if 'a' ≤ c ∧ c ≤ 'f' then some (c.toNat - 'a'.toNat + 10)
    else if 'A' ≤ c ∧ c ≤ 'F' then some (c.toNat - 'A'.toNat + 10)
    else none) = some d)) := by decide
      rcases hc with rfl | rfl
      · exact (hh d hd).1
      · exact (hh d hd).2
    exact this d hx c hc

theorem Digits.functional {base : Nat} (hb : base ≤ 16) {s : Text} {ds es : List Nat}
    (h : Digits base s ds) (h' : Digits base s es) : ds = es := by
  induction h generalizing es with
  | nil => cases h'; rfl
  | cons hd _ ih =>
    cases h' with
    | cons he hs =>
      have := (digit_iff hb _ _).mpr hd
      have h2 := (digit_iff hb _ _).mpr he
      rw [this] at h2
      cases h2
      rw [ih hs]

def valueFrom (base : Nat) (r : Nat) (ds : List Nat) : Nat := ds.foldl (fun n d => n * base + d) r

theorem valueFrom_ge {base : Nat} (hb : 1 ≤ base) (ds : List Nat) : ∀ r, r ≤ valueFrom base r ds := by
  induction ds with
  | nil => intro r; exact Nat.le_refl _
  | cons d ds ih =>
    intro r
    have := ih (r * base + d)
    have h2 : r ≤ r * base := Nat.le_mul_of_pos_right _ hb
    simp only [valueFrom, List.foldl_cons] at this ⊢
    omega

theorem accumulate_rest {base max : Nat} (hb : base ≤ 16) (text : Text) (r : Nat) (ov : Bool) (n : Nat) :
    (accumulate base max text r ov n).2.2.2 = [] ↔ ∃ ds, Digits base text ds := by
  induction text generalizing r ov n with
  | nil => simp only [accumulate, true_iff]; exact ⟨[], .nil⟩
  | cons c rest ih =>
    unfold accumulate
    cases hd : digit base c with
    | none =>
      simp only [List.cons_ne_nil, false_iff, reduceCtorEq]
      rintro ⟨ds, h⟩
      cases h with
      | cons h1 h2 => rw [(digit_iff hb _ _).mpr h1] at hd; cases hd
    | some d =>
      have key : (∃ ds, Digits base rest ds) ↔ ∃ ds, Digits base (c :: rest) ds := by
        constructor
        · rintro ⟨ds, h⟩; exact ⟨d :: ds, .cons ((digit_iff hb _ _).mp hd) h⟩
        · rintro ⟨ds, h⟩
          cases h with
          | cons h1 h2 => exact ⟨_, h2⟩
      simp only
      split
      · rw [ih]; exact key
      · rw [ih]; exact key

theorem accumulate_ov {base max : Nat} (text : Text) (r : Nat) (n : Nat) :
    (accumulate base max text r true n).2.1 = true := by
  induction text generalizing r n with
  | nil => rfl
  | cons c rest ih =>
    unfold accumulate
    cases hd : digit base c with
    | none => rfl
    | some d =>
      simp only [Bool.true_or]
      split <;> exact ih _ _

theorem accumulate_ok {base max : Nat} (hb : base ≤ 16) (hb1 : 1 ≤ base) (hm : base ≤ max) {text : Text} {ds : List Nat}
    (h : Digits base text ds) (r n : Nat) (hr : r ≤ max) :
    (valueFrom base r ds ≤ max → accumulate base max text r false n =
      (valueFrom base r ds, false, n + ds.length, [])) ∧
    (max < valueFrom base r ds → (accumulate base max text r false n).2.1 = true) := by
  induction h generalizing r n with
  | nil =>
    constructor
    · intro _; rfl
    · intro h; simp only [valueFrom, List.foldl_nil] at h; omega
  | @cons c d s ds hd _ ih =>
    have hdig := (digit_iff hb _ _).mpr hd
    have hlt : d < base := hd.1
    unfold accumulate
    simp only [hdig]
    have hv : valueFrom base r (d :: ds) = valueFrom base (r * base + d) ds := rfl
    rw [hv]
    have hge := valueFrom_ge hb1 ds (r * base + d)
    by_cases hc : max / base < r
    · have hbig : max < r * base := (Nat.div_lt_iff_lt_mul (by omega)).mp hc
      simp only [hc, if_true]
      refine ⟨fun hle => by omega, fun _ => accumulate_ov _ _ _⟩
    · simp only [hc, if_false, Bool.false_or]
      have hsm : r * base ≤ max := by
        have := (Nat.div_lt_iff_lt_mul (k := base) (x := max) (y := r) (by omega))
        omega
      by_cases ho : max - d < r * base
      · simp only [ho, decide_true]
        exact ⟨fun hle => by omega, fun _ => accumulate_ov _ _ _⟩
      · simp only [ho, decide_false]
        obtain ⟨i1, i2⟩ := ih (r * base + d) (n + 1) (by omega)
        refine ⟨fun hle => ?_, i2⟩
        rw [i1 hle]
        simp only [List.length_cons]
        congr 3
        omega

/-- The unsigned part of `streamRead`: base detection and digits. -/
def readNumeral (max : Nat) (s : Text) : Option Nat :=
  let (base, zero, s) := detectBase s
  let (result, overflow, count, s) := accumulate base max s 0 false 0
  if count = 0 ∧ zero = false then none
  else if overflow then none
  else if s.isEmpty then some result else none

theorem detectBase_cases (s : Text) :
    (∃ x r, (x = 'x' ∨ x = 'X') ∧ s = '0' :: x :: r ∧ detectBase s = (16, false, r)) ∨
    (∃ r, s = '0' :: r ∧ (∀ x r', r = x :: r' → x ≠ 'x' ∧ x ≠ 'X') ∧ detectBase s = (8, true, r)) ∨
    (s.head? ≠ some '0' ∧ detectBase s = (10, false, s)) := by
  cases s with
  | nil => right; right; exact ⟨by simp, rfl⟩
  | cons a s =>
    by_cases ha : a = '0'
    · subst ha
      cases s with
      | nil => right; left; exact ⟨[], rfl, by simp, rfl⟩
      | cons b s =>
        by_cases hb : b = 'x'
        · subst hb; left; exact ⟨'x', s, .inl rfl, rfl, rfl⟩
        · by_cases hb' : b = 'X'
          · subst hb'; left; exact ⟨'X', s, .inr rfl, rfl, rfl⟩
          · right; left
            refine ⟨b :: s, rfl, ?_, ?_⟩
            · rintro x r' h; cases h; exact ⟨hb, hb'⟩
            · unfold detectBase
              split
              · rename_i heq; cases heq; exact absurd rfl hb
              · rename_i heq; cases heq; exact absurd rfl hb'
              · rename_i heq; cases heq; rfl
              · rename_i h1; exact absurd rfl (h1 _)
    · right; right
      refine ⟨by simp [ha], ?_⟩
      unfold detectBase
      split
      · rename_i heq; cases heq; exact absurd rfl ha
      · rename_i heq; cases heq; exact absurd rfl ha
      · rename_i heq; cases heq; exact absurd rfl ha
      · rfl

theorem digits_head {base : Nat} (hb : base ≤ 16) {c : Char} {s : Text} {ds : List Nat}
    (h : Digits base (c :: s) ds) : ∃ d, digit base c = some d ∧ ds.head? = some d := by
  cases h with
  | cons h1 _ => exact ⟨_, (digit_iff hb _ _).mpr h1, rfl⟩

/-- Case analysis on a numeral, by the same cases as base detection. -/
theorem readNumeral_iff {max : Nat} (hm : 16 ≤ max) (s : Text) (n : Nat) :
    readNumeral max s = some n ↔ (∃ h, Numeral s h n) ∧ n ≤ max := by
  have core : ∀ base zero r, base ≤ 16 → 1 ≤ base → detectBase s = (base, zero, r) →
      (readNumeral max s = some n ↔
        ∃ ds, Digits base r ds ∧ (ds = [] → zero = true) ∧ valueFrom base 0 ds = n ∧ n ≤ max) := by
    intro base zero r hb hb1 hdb
    unfold readNumeral
    rw [hdb]
    simp only
    constructor
    · intro h
      split at h
      · cases h
      · rename_i hc
        split at h
        · cases h
        · rename_i hov
          split at h
          · rename_i he
            rw [List.isEmpty_iff] at he
            obtain ⟨ds, hds⟩ := (accumulate_rest hb _ _ _ _).mp he
            obtain ⟨i1, i2⟩ := accumulate_ok hb hb1 (by omega : base ≤ max) hds 0 0 (Nat.zero_le _)
            by_cases hle : valueFrom base 0 ds ≤ max
            · rw [i1 hle] at h hc
              cases h
              refine ⟨ds, hds, ?_, rfl, hle⟩
              rintro rfl
              simp at hc
              exact hc
            · exact absurd (i2 (by omega)) hov
          · cases h
    · rintro ⟨ds, hds, hz, hv, hle⟩
      obtain ⟨i1, _⟩ := accumulate_ok hb hb1 (by omega : base ≤ max) hds 0 0 (Nat.zero_le _)
      rw [i1 (by omega)]
      simp only [Nat.zero_add, List.isEmpty_nil, Bool.false_eq_true, if_false, if_true, hv, ite_eq_right_iff]
      rintro ⟨h1, h2⟩
      have : ds = [] := List.length_eq_zero_iff.mp h1
      rw [hz this] at h2; cases h2
  rcases detectBase_cases s with ⟨x, r, hx, rfl, hdb⟩ | ⟨r, rfl, hx, hdb⟩ | ⟨h0, hdb⟩
  · rw [core _ _ _ (by omega) (by omega) hdb]
    constructor
    · rintro ⟨ds, hds, hz, rfl, hle⟩
      refine ⟨⟨true, .hex hx ?_ hds⟩, hle⟩
      rintro rfl
      cases hds
      exact absurd (hz rfl) (by decide)
    · rintro ⟨⟨h, hn⟩, hle⟩
      cases hn with
      | hex _ hne hds =>
        refine ⟨_, hds, ?_, rfl, hle⟩
        rintro rfl
        cases hds
        exact absurd rfl hne
      | octal hds =>
        obtain ⟨d, hd, _⟩ := digits_head (by omega) hds
        have e1 : digit 8 'x' = none := by decide
        have e2 : digit 8 'X' = none := by decide
        rcases hx with rfl | rfl
        · rw [e1] at hd; cases hd
        · rw [e2] at hd; cases hd
      | decimal hds hne =>
        obtain ⟨d, hd, hh⟩ := digits_head (by omega) hds
        have : digit 10 '0' = some 0 := by decide
        rw [this] at hd
        cases hd
        simp only [List.head?_cons, Option.some.injEq] at hh
        exact absurd hh hne
  · rw [core _ _ _ (by omega) (by omega) hdb]
    constructor
    · rintro ⟨ds, hds, hz, rfl, hle⟩
      exact ⟨⟨false, .octal hds⟩, hle⟩
    · rintro ⟨⟨h, hn⟩, hle⟩
      cases hn with
      | hex h1 hne hds =>
        rcases h1 with rfl | rfl
        · exact absurd rfl (hx _ _ rfl).1
        · exact absurd rfl (hx _ _ rfl).2
      | octal hds => exact ⟨_, hds, fun _ => rfl, rfl, hle⟩
      | decimal hds hne =>
        obtain ⟨d, hd, hh⟩ := digits_head (by omega) hds
        have : digit 10 '0' = some 0 := by decide
        rw [this] at hd
        cases hd
        simp only [List.head?_cons, Option.some.injEq] at hh
        exact absurd hh hne
  · rw [core _ _ _ (by omega) (by omega) hdb]
    constructor
    · rintro ⟨ds, hds, hz, rfl, hle⟩
      cases hds with
      | nil => exact absurd (hz rfl) (by decide)
      | @cons c d s ds hd hs =>
        refine ⟨⟨false, .decimal (.cons hd hs) ?_⟩, hle⟩
        rintro rfl
        rcases hd.2 with rfl | rfl <;> exact h0 rfl
    · rintro ⟨⟨h, hn⟩, hle⟩
      cases hn with
      | hex => exact absurd rfl h0
      | octal => exact absurd rfl h0
      | decimal hds hne => exact ⟨_, hds, by simp, rfl, hle⟩

theorem readSign_cases (s : Text) :
    (∃ r, s = '-' :: r ∧ readSign s = (true, r)) ∨ (∃ r, s = '+' :: r ∧ readSign s = (false, r)) ∨
    (s.head? ≠ some '-' ∧ s.head? ≠ some '+' ∧ readSign s = (false, s)) := by
  cases s with
  | nil => right; right; exact ⟨by simp, by simp, rfl⟩
  | cons a s =>
    by_cases h : a = '-'
    · subst h; left; exact ⟨s, rfl, rfl⟩
    · by_cases h' : a = '+'
      · subst h'; right; left; exact ⟨s, rfl, rfl⟩
      · right; right
        refine ⟨by simp [h], by simp [h'], ?_⟩
        unfold readSign
        split
        · rename_i heq; cases heq; exact absurd rfl h
        · rename_i heq; cases heq; exact absurd rfl h'
        · rfl

/-- `streamRead` succeeds and consumes everything exactly if the numeral after
    white space and sign is read. -/
theorem streamRead_good (t : IntT) (text : Text) (v : Int) :
    streamRead t text = ⟨v, false, true⟩ ↔
      ∃ n, readNumeral (t.magnitude (readSign (text.dropWhile isSpace)).1)
          (readSign (text.dropWhile isSpace)).2 = some n ∧
        v = (if (readSign (text.dropWhile isSpace)).1 then
              (if t.signed then -(n : Int) else ((2 ^ t.bits - n) % 2 ^ t.bits : Nat))
             else n) := by
  unfold streamRead readNumeral
  simp only
  generalize (readSign (text.dropWhile isSpace)).1 = neg
  generalize detectBase (readSign (text.dropWhile isSpace)).2 = db
  generalize accumulate db.1 (t.magnitude neg) db.2.2 0 false 0 = a
  by_cases h1 : a.2.2.1 = 0 ∧ db.2.1 = false
  · simp [h1]
  · simp only [h1, if_false]
    by_cases h2 : a.2.1 = true
    · simp [h2]
    · simp only [h2, if_false]
      by_cases h3 : a.2.2.2.isEmpty = true
      · simp only [h3, Bool.false_eq_true, if_false, if_true, Read.mk.injEq, and_true, true_and, Option.some.injEq]
        constructor
        · intro h; exact ⟨_, rfl, h.symm⟩
        · rintro ⟨n, rfl, h⟩; exact h.symm
      · simp [h3]

end Verif.ParseNumber
