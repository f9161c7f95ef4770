import Verif.Disasm.Spec
import Verif.Asm.Props
import Verif.Asm.Names
import Verif.ParseNumber.Props
import Verif.NameMapper.Props
/-!
Words of the printed text as the assembler sees them.
-/
set_option linter.unusedSimpArgs false
set_option linter.unusedVariables false
namespace Verif.Disasm
open Verif.ParseNumber (Text)
open Verif.Asm
open Verif.Asm.Spec (Separated)
open Spec

/-! ## Blank text -/

/-- Text the assembler skips. -/
def Blank (b : Text) : Prop := ∀ s, advanceTo (b ++ s) = advanceTo s

theorem Blank.nil : Blank [] := fun _ => rfl

theorem Blank.append {a b : Text} (ha : Blank a) (hb : Blank b) : Blank (a ++ b) := by
  intro s; rw [List.append_assoc, ha, hb]

theorem Blank.cons {c : Char} {b : Text} (hc : isBlank c = true) (hb : Blank b) : Blank (c :: b) := by
  intro s
  rw [List.cons_append, advanceTo]
  have h1 : c ≠ '\x00' := by rintro rfl; cases hc
  have h2 : c ≠ ';' := by rintro rfl; cases hc
  rw [if_neg h1, if_neg h2, if_pos hc, hb]

theorem Blank.spaces (n : Nat) : Blank (spaces n) := by
  induction n with
  | zero => exact Blank.nil
  | succ n ih => exact Blank.cons rfl ih

theorem advanceLine_comment {t : Text} (h : '\n' ∉ t) (h0 : '\x00' ∉ t) (s : Text) :
    advanceLine (t ++ '\n' :: s) = s := by
  induction t with
  | nil => simp [advanceLine]
  | cons c t ih =>
    simp only [List.mem_cons, not_or] at h h0
    rw [List.cons_append, advanceLine, if_neg (Ne.symm h0.1), if_neg (Ne.symm h.1)]
    exact ih h.2 h0.2

theorem Blank.comment {t : Text} (h : '\n' ∉ t) (h0 : '\x00' ∉ t) : Blank (';' :: (t ++ ['\n'])) := by
  intro s
  have e : (';' :: (t ++ ['\n'])) ++ s = ';' :: (t ++ '\n' :: s) := by simp
  rw [e, advanceTo, if_neg (by decide), if_pos rfl, advanceLine_comment h h0]

theorem Blank.advance {b : Text} (h : Blank b) (s : Text) : advance (b ++ s) = advance s := by
  unfold Asm.advance; rw [h]

/-! ## Words -/

/-- What may follow a word, for the assembler not to take the word as the result id of a new
instruction. -/
def NotEq (k : Text) : Prop := ∀ r, advance k = some r → (getWord r).1 ≠ ['=']

structure Sep (k : Text) : Prop where
  separated : Separated k
  notEq : NotEq k

/-- A word the assembler reads as one operand. -/
structure Solid (tok : Text) : Prop where
  word : ∀ k, Separated k → getWord (tok ++ k) = (tok, k)
  start : ∀ k, Sep k → isStartOfNewInst (tok ++ k) = some false
  head : ∃ c r, tok = c :: r ∧ isBlank c = false ∧ c ≠ ';' ∧ c ≠ '\x00' ∧ c ≠ '!'
  ne : tok ≠ ['=']

theorem advanceTo_solid {c : Char} {s : Text} (h1 : isBlank c = false) (h2 : c ≠ ';') (h3 : c ≠ '\x00') :
    advanceTo (c :: s) = c :: s := by
  rw [advanceTo, if_neg h3, if_neg h2, h1]; simp

theorem advance_solid {c : Char} {s : Text} (h1 : isBlank c = false) (h2 : c ≠ ';') (h3 : c ≠ '\x00') :
    advance (c :: s) = some (c :: s) := by
  unfold advance; rw [advanceTo_solid h1 h2 h3]; simp [h3]

theorem Solid.advance {tok : Text} (h : Solid tok) (k : Text) : advance (tok ++ k) = some (tok ++ k) := by
  obtain ⟨c, r, rfl, h1, h2, h3, -⟩ := h.head
  exact advance_solid h1 h2 h3

/-- Characters with no meaning of their own. -/
def plain (c : Char) : Bool := !isDelim c && c != '\\' && c != '"' && c != '\x00'

theorem getWord_plain {tok : Text} (h : ∀ c ∈ tok, plain c = true) {k : Text} (hk : Separated k) :
    getWord (tok ++ k) = (tok, k) := by
  unfold getWord
  induction tok with
  | nil => exact getWordFrom_separated hk
  | cons c tok ih =>
    have hc := h c (List.mem_cons_self ..)
    simp only [plain, Bool.and_eq_true, Bool.not_eq_true', bne_iff_ne, ne_eq] at hc
    obtain ⟨⟨⟨h1, h2⟩, h3⟩, h4⟩ := hc
    rw [List.cons_append, getWordFrom, if_neg h2, if_neg h3]
    simp only [h1, Bool.false_and, Bool.false_eq_true, if_false, h4]
    rw [ih (fun c hc => h c (List.mem_cons_of_mem _ hc))]

theorem isBlank_delim {c : Char} (h : isBlank c = true) : isDelim c = true := by
  unfold isBlank at h; unfold isDelim
  simp only [Bool.or_eq_true, beq_iff_eq] at h ⊢
  rcases h with ((h | h) | h) | h <;> simp [h]

theorem plain_head {c : Char} (h : plain c = true) : isBlank c = false ∧ c ≠ ';' ∧ c ≠ '\x00' := by
  simp only [plain, Bool.and_eq_true, Bool.not_eq_true', bne_iff_ne, ne_eq] at h
  obtain ⟨⟨⟨h1, h2⟩, h3⟩, h4⟩ := h
  refine ⟨?_, ?_, h4⟩
  · cases hb : isBlank c with
    | false => rfl
    | true => rw [isBlank_delim hb] at h1; cases h1
  · rintro rfl; cases h1

theorem separated_not_upper {c : Char} {k : Text} (hk : Separated (c :: k)) : ¬ ('A' ≤ c ∧ c ≤ 'Z') := by
  have := hk c rfl
  simp only [List.mem_cons, List.not_mem_nil, or_false] at this
  rcases this with rfl | rfl | rfl | rfl | rfl | rfl | rfl | rfl | rfl <;> decide

theorem separated_ne {c : Char} {k : Text} (hk : Separated (c :: k)) : c ≠ 'O' ∧ c ≠ 'p' := by
  have := hk c rfl
  simp only [List.mem_cons, List.not_mem_nil, or_false] at this
  rcases this with rfl | rfl | rfl | rfl | rfl | rfl | rfl | rfl | rfl <;> decide

/-- A word does not look like an opcode because of what follows it. -/
theorem startsWithOp_append {tok : Text} (h0 : startsWithOp tok = false) {k : Text} (hk : Separated k)
    (hne : tok ≠ []) : startsWithOp (tok ++ k) = false := by
  match tok, h0, hne with
  | [a], h0, _ =>
    match k, hk with
    | [], _ => rfl
    | [_], _ => rfl
    | b :: c :: k, hk =>
      have := (separated_ne hk).2
      simp [startsWithOp, this]
  | [a, b], h0, _ =>
    match k, hk with
    | [], _ => rfl
    | c :: k, hk =>
      have := separated_not_upper hk
      simp only [List.cons_append, List.nil_append, startsWithOp, Bool.and_eq_false_imp, decide_eq_false_iff_not]
      intro _; exact this
  | a :: b :: c :: r, h0, _ => exact h0

theorem solid_plain {tok : Text} (hne : tok ≠ []) (h : ∀ c ∈ tok, plain c = true)
    (h1 : startsWithOp tok = false) (h2 : tok.head? ≠ some '%') (h3 : tok.head? ≠ some '!')
    (h4 : tok ≠ ['=']) : Solid tok := by
  refine ⟨fun k hk => getWord_plain h hk, ?_, ?_, h4⟩
  · intro k hk
    obtain ⟨c, r, rfl⟩ : ∃ c r, tok = c :: r := by
      cases tok with
      | nil => exact absurd rfl hne
      | cons c r => exact ⟨c, r, rfl⟩
    obtain ⟨p1, p2, p3⟩ := plain_head (h c (List.mem_cons_self ..))
    unfold isStartOfNewInst
    rw [List.cons_append, advance_solid p1 p2 p3]
    simp only
    rw [← List.cons_append, startsWithOp_append h1 hk.separated hne]
    rw [getWord_plain h hk.separated]
    have : c ≠ '%' := fun hc => h2 (by rw [hc]; rfl)
    simp [this]
  · cases tok with
    | nil => exact absurd rfl hne
    | cons c r =>
      obtain ⟨p1, p2, p3⟩ := plain_head (h c (List.mem_cons_self ..))
      exact ⟨c, r, rfl, p1, p2, p3, fun hc => h3 (by rw [hc]; rfl)⟩

theorem plain_valid {c : Char} (h : (c == '_' || isAlnum c) = true) : plain c = true := by
  have key : ∀ d, (d == '_' || isAlnum d) = false → c ≠ d := by
    rintro d hd rfl; rw [h] at hd; cases hd
  simp only [plain, isDelim, Bool.and_eq_true, Bool.not_eq_true', Bool.or_eq_false_iff, beq_eq_false_iff_ne,
    bne_iff_ne, ne_eq]
  refine ⟨⟨⟨⟨⟨⟨⟨⟨⟨⟨?_, ?_⟩, ?_⟩, ?_⟩, ?_⟩, ?_⟩, ?_⟩, ?_⟩, ?_⟩, ?_⟩, ?_⟩ <;> exact key _ (by decide)

theorem valid_chars {s : Text} (h : isValidId s = true) : s ≠ [] ∧ ∀ c ∈ s, (c == '_' || isAlnum c) = true := by
  unfold isValidId at h
  simp only [Bool.and_eq_true, List.all_eq_true, decide_eq_true_eq, ne_eq] at h
  exact ⟨by simpa using h.1, h.2⟩

theorem valid_head {s : Text} (h : isValidId s = true) {d : Char} (hd : (d == '_' || isAlnum d) = false) :
    s.head? ≠ some d := by
  intro he
  have := (valid_chars h).2 d (List.mem_of_mem_head? he)
  rw [hd] at this; cases this

theorem solid_name {s : Text} (h : NameOk s) : Solid s := by
  obtain ⟨h1, h2⟩ := valid_chars h.1
  refine solid_plain h1 (fun c hc => plain_valid (h2 c hc)) h.2 (valid_head h.1 (by decide))
    (valid_head h.1 (by decide)) ?_
  rintro rfl
  exact absurd (valid_head h.1 (d := '=') (by decide)) (by simp)

/-- An id. -/
theorem solid_id {s : Text} (h : isValidId s = true) : Solid ('%' :: s) := by
  obtain ⟨h1, h2⟩ := valid_chars h
  have hp : ∀ c ∈ '%' :: s, plain c = true := by
    intro c hc
    rcases List.mem_cons.mp hc with rfl | hc
    · decide
    · exact plain_valid (h2 c hc)
  refine ⟨fun k hk => getWord_plain hp hk, ?_, ⟨'%', s, rfl, by decide, by decide, by decide, by decide⟩, by simp⟩
  intro k hk
  unfold isStartOfNewInst
  rw [List.cons_append, advance_solid (by decide) (by decide) (by decide)]
  have hs : startsWithOp ('%' :: (s ++ k)) = false := by
    match h : s ++ k with
    | [] => rfl
    | [_] => rfl
    | _ :: _ :: _ => rfl
  simp only [hs, Bool.false_eq_true, if_false]
  rw [← List.cons_append, getWord_plain hp hk.separated]
  simp only [ne_eq, not_true_eq_false, if_false]
  cases ha : advance k with
  | none => rfl
  | some r =>
    have := hk.notEq r ha
    simp only
    rw [if_pos this]

theorem solid_quote {s : Text} (h : '\x00' ∉ s) : Solid (quote s) := by
  refine ⟨fun k hk => getWord_quote s h k hk, ?_,
    ⟨'"', escape s ++ ['"'], rfl, by decide, by decide, by decide, by decide⟩, by simp [quote]⟩
  intro k hk
  unfold isStartOfNewInst
  have he : quote s ++ k = '"' :: (escape s ++ ['"'] ++ k) := by simp [quote]
  have hs : startsWithOp ('"' :: (escape s ++ ['"'] ++ k)) = false := by
    match h : escape s ++ ['"'] ++ k with
    | [] => rfl
    | [_] => rfl
    | _ :: _ :: _ => rfl
  rw [he, advance_solid (by decide) (by decide) (by decide)]
  simp only [hs, Bool.false_eq_true, if_false]
  rw [← he, getWord_quote s h k hk.separated]
  simp [quote]

/-! ## What follows a word -/

theorem Separated.space (k : Text) : Separated (' ' :: k) := by
  intro c hc; simp only [List.head?_cons, Option.some.injEq] at hc; subst hc; simp

theorem advance_space (k : Text) : advance (' ' :: k) = advance k :=
  Blank.advance (b := [' ']) (Blank.cons rfl Blank.nil) k

/-- Another word. -/
theorem Sep.token {tok k : Text} (h : Solid tok) (hk : Separated k) : Sep (' ' :: (tok ++ k)) := by
  refine ⟨Separated.space _, ?_⟩
  intro r hr
  rw [advance_space, h.advance] at hr
  cases hr
  rw [h.word k hk]
  exact h.ne

/-! ## Numbers -/

theorem dec_eq (n : Nat) : dec n = NameMapper.toStr n := rfl

theorem dec_digits (n : Nat) : ∀ c ∈ dec n, '0' ≤ c ∧ c ≤ '9' := NameMapper.toStr_chars n
theorem dec_ne_nil (n : Nat) : dec n ≠ [] := NameMapper.toStr_ne_nil n
theorem dec_inj {m n : Nat} (h : dec m = dec n) : m = n := NameMapper.toStr_inj h

theorem dec_valid (n : Nat) : isValidId (dec n) = true := by
  unfold isValidId
  simp only [Bool.and_eq_true, List.all_eq_true, decide_eq_true_eq, ne_eq]
  refine ⟨by simpa using dec_ne_nil n, ?_⟩
  intro c hc
  have := dec_digits n c hc
  simp [isAlnum, this]

theorem digit_not_op {s : Text} (h : ∀ c ∈ s, c ≠ 'O') : startsWithOp s = false := by
  match s with
  | [] => rfl
  | [_] => rfl
  | [_, _] => rfl
  | a :: b :: c :: r => simp [startsWithOp, h a (List.mem_cons_self ..)]

theorem digit_ne {c : Char} (h : '0' ≤ c ∧ c ≤ '9') : c ≠ 'O' ∧ c ≠ '-' := by
  constructor <;> rintro rfl <;> revert h <;> decide

theorem dec_nameOk (n : Nat) : NameOk (dec n) :=
  ⟨dec_valid n, digit_not_op fun c hc => (digit_ne (dec_digits n c hc)).1⟩

theorem decInt_solid (n : Int) : Solid (decInt n) := by
  unfold decInt
  split
  · have hv := (valid_chars (dec_valid n.natAbs)).2
    refine solid_plain (by simp) ?_ ?_ (by simp) (by simp) (by simp)
    · intro c hc
      rcases List.mem_cons.mp hc with rfl | hc
      · decide
      · exact plain_valid (hv c hc)
    · apply digit_not_op
      intro c hc
      rcases List.mem_cons.mp hc with rfl | hc
      · decide
      · exact (digit_ne (dec_digits _ c hc)).1
  · exact solid_name (dec_nameOk _)

theorem digitChar_isDigit {d : Nat} (h : d < 10) : ParseNumber.Spec.IsDigit 10 (Nat.digitChar d) d :=
  ⟨h, .inl rfl⟩

theorem digits_append {a b : Text} {x y : List Nat} (ha : ParseNumber.Spec.Digits 10 a x)
    (hb : ParseNumber.Spec.Digits 10 b y) : ParseNumber.Spec.Digits 10 (a ++ b) (x ++ y) := by
  induction ha with
  | nil => exact hb
  | cons h _ ih => exact .cons h ih

/-- The digits of a decimal text. -/
theorem dec_spec (n : Nat) (h : n ≠ 0) : ∃ d ds, d ≠ 0 ∧ ParseNumber.Spec.Digits 10 (dec n) (d :: ds) ∧
    ParseNumber.Spec.value 10 (d :: ds) = n := by
  induction n using Nat.strongRecOn with
  | ind n ih =>
    by_cases hlt : n < 10
    · refine ⟨n, [], h, ?_, by simp [ParseNumber.Spec.value]⟩
      unfold dec
      rw [Nat.toDigits_of_lt_base hlt]
      exact .cons (digitChar_isDigit hlt) .nil
    · obtain ⟨d, ds, h1, h2, h3⟩ := ih (n / 10) (by omega) (by omega)
      refine ⟨d, ds ++ [n % 10], h1, ?_, ?_⟩
      · unfold dec at h2 ⊢
        rw [Nat.toDigits_of_base_le (by omega) (by omega)]
        exact digits_append h2 (.cons (digitChar_isDigit (Nat.mod_lt _ (by omega))) .nil)
      · unfold ParseNumber.Spec.value at h3 ⊢
        rw [← List.cons_append, List.foldl_append, h3]
        simp only [List.foldl_cons, List.foldl_nil]
        omega

theorem dec_numeral (n : Nat) : ParseNumber.Spec.Numeral (dec n) false n := by
  by_cases h : n = 0
  · subst h
    exact .octal (s := []) .nil
  · obtain ⟨d, ds, h1, h2, h3⟩ := dec_spec n h
    have := ParseNumber.Spec.Numeral.decimal h2 h1
    rw [h3] at this; exact this

theorem parseU32_dec (n : Nat) (h : n < 2 ^ 32) : parseU32 (dec n) = some n :=
  (parseU32_iff (dec_valid n) n).mpr ⟨⟨false, dec_numeral n⟩, h⟩

theorem decInt_literal {w : Nat} {signed : Bool} {v : Int} (h : ParseNumber.Spec.Representable w signed v) :
    ParseNumber.Spec.Literal w signed (decInt v) v := by
  unfold decInt
  split
  · rename_i hneg
    have hv : v = -((v.natAbs : Nat) : Int) := by omega
    have hs : signed = true := by
      cases signed with
      | true => rfl
      | false => simp only [ParseNumber.Spec.Representable, Bool.false_eq_true, if_false] at h; omega
    have := ParseNumber.Spec.Literal.minus (w := w) (dec_numeral v.natAbs) hs (by rw [← hv]; exact h)
    rw [← hv] at this; exact this
  · have hv : v = ((v.natAbs : Nat) : Int) := by omega
    have := ParseNumber.Spec.Literal.number (w := w) (signed := signed) (dec_numeral v.natAbs) (by rw [← hv]; exact h)
    rw [← hv] at this; exact this

theorem classify_digits {s : Text} (h : ∀ c ∈ s, '0' ≤ c ∧ c ≤ '9') (i : Nat) : classify i false 0 s = (false, 0) := by
  induction s generalizing i with
  | nil => rfl
  | cons c s ih =>
    rw [classify, if_pos (h c (List.mem_cons_self ..))]
    exact ih (fun c hc => h c (List.mem_cons_of_mem _ hc)) _

theorem textToLiteral_dec (n : Nat) (h : n < 2 ^ 32) : textToLiteral (dec n) = .u32 n := by
  have hd : (dec n).foldl (fun n c => n * 10 + (c.toNat - '0'.toNat)) 0 = n := by
    have := Nat.ofDigitChars_ten_toDigits (n := n)
    unfold Nat.ofDigitChars at this
    unfold dec
    rw [← this]
    congr 1
    · funext a c; omega
    · rw [this]
  have hdec : decimal (dec n) = n := by unfold decimal; rw [hd]; omega
  have hh : (dec n).head? ≠ some '-' := by
    intro hc
    exact (digit_ne (dec_digits n _ (List.mem_of_mem_head? hc))).2 rfl
  unfold textToLiteral
  rw [if_neg (dec_ne_nil n), classify_digits (dec_digits n), hdec]
  simp [hh, h]

end Verif.Disasm
