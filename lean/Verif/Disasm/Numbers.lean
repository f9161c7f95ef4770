import Verif.Disasm.Tokens
/-!
Numbers: the printed text and what the assembler makes of it.
-/
set_option linter.unusedSimpArgs false
set_option linter.unusedVariables false
namespace Verif.Disasm
open Verif.ParseNumber (Text NumberType)
open Verif.Binary (OT Inst POperand)
open Verif.Asm hiding Inst Word
open Spec

theorem toNat_ofInt32 {v : Int} (h0 : 0 ≤ v) (h1 : v < 2 ^ 32) : ((BitVec.ofInt 32 v).toNat : Int) = v := by
  rw [BitVec.toNat_ofInt]; omega

theorem toInt_ofInt32 {v : Int} (h0 : -(2 ^ 31) ≤ v) (h1 : v < 2 ^ 31) : (BitVec.ofInt 32 v).toInt = v := by
  rw [BitVec.toInt_ofInt, Int.bmod_eq_of_le] <;> simp <;> omega

theorem append_ofInt (v : Int) :
    (BitVec.ofInt 32 (v / 2 ^ 32) ++ BitVec.ofInt 32 v : BitVec 64) = BitVec.ofInt 64 v := by
  apply BitVec.eq_of_toNat_eq
  rw [BitVec.toNat_append, BitVec.toNat_ofInt, BitVec.toNat_ofInt, BitVec.toNat_ofInt,
    ← Nat.shiftLeft_add_eq_or_of_lt (by omega), Nat.shiftLeft_eq]
  omega

theorem toNat_ofInt64 {v : Int} (h0 : 0 ≤ v) (h1 : v < 2 ^ 64) : ((BitVec.ofInt 64 v).toNat : Int) = v := by
  rw [BitVec.toNat_ofInt]; omega

theorem toInt_ofInt64 {v : Int} (h0 : -(2 ^ 63) ≤ v) (h1 : v < 2 ^ 63) : (BitVec.ofInt 64 v).toInt = v := by
  rw [BitVec.toInt_ofInt, Int.bmod_eq_of_le] <;> simp <;> omega

theorem pow_int_le {a b : Nat} (h : a ≤ b) : (2 ^ a : Int) ≤ 2 ^ b := by
  exact_mod_cast Nat.pow_le_pow_right (by omega) h

theorem dec_nat (n : Nat) : dec n = decInt (n : Int) := by
  unfold decInt; rw [if_neg (by omega)]; simp

/-- The type of an operand is printed by `emitNumeric`. -/
def NumOT (t : OT) : Prop := t = .LITERAL_INTEGER ∨ t = .LITERAL_FLOAT ∨ t = .TYPED_LITERAL_NUMBER

theorem take_one {l : List Word} {k : Nat} {w : Word} (h : (l.drop k).take 1 = [w]) : l[k]? = some w := by
  have : ((l.drop k).take 1)[0]? = some w := by rw [h]; rfl
  rw [List.getElem?_take_of_lt (by omega), List.getElem?_drop] at this
  simpa using this

theorem take_two {l : List Word} {k : Nat} {w w1 : Word} (h : (l.drop k).take 2 = [w, w1]) :
    l[k]? = some w ∧ l[k + 1]? = some w1 := by
  have h0 : ((l.drop k).take 2)[0]? = some w := by rw [h]; rfl
  have h1 : ((l.drop k).take 2)[1]? = some w1 := by rw [h]; rfl
  rw [List.getElem?_take_of_lt (by omega), List.getElem?_drop] at h0 h1
  exact ⟨by simpa using h0, h1⟩

/-- Integers: the text is that of the value. -/
theorem emitNumeric_int {N : Names} {x : Inst} {o : POperand} (ht : NumOT o.type)
    (hk : o.nkind = .unsigned ∨ o.nkind = .signed)
    (hn : o.nwords = if o.width.toNat ≤ 32 then 1 else 2)
    (hc : Canonical o.width.toNat (o.nkind = .signed) (operandWords x o)) :
    ∃ v, ParseNumber.Spec.Representable o.width.toNat (o.nkind = .signed) v ∧
      operandWords x o = ParseNumber.Spec.words o.width.toNat v ∧ emitNumeric N x o = some (decInt v) := by
  obtain ⟨hw1, hw2, v, hv, hws⟩ := hc
  refine ⟨v, hv, hws, ?_⟩
  unfold emitNumeric
  rw [if_neg (by rcases ht with h | h | h <;> simp [h])]
  unfold operandWords at hws
  unfold ParseNumber.Spec.words at hws
  generalize hwd : o.width.toNat = width at *
  by_cases h32 : width ≤ 32
  · rw [if_pos h32] at hn hws
    rw [hn] at hws ⊢
    rw [if_neg (by omega), if_neg (by omega), take_one hws]
    simp only [if_true]
    rcases hk with hk | hk
    · rw [hk] at hv ⊢
      simp only [ParseNumber.Spec.Representable, reduceCtorEq, decide_false, Bool.false_eq_true, if_false] at hv
      have := pow_int_le h32
      simp only
      rw [dec_nat, toNat_ofInt32 hv.1 (by omega)]
    · rw [hk] at hv ⊢
      simp only [ParseNumber.Spec.Representable, decide_true, if_true] at hv
      have := pow_int_le (show width - 1 ≤ 31 by omega)
      simp only
      rw [toInt_ofInt32 (by omega) (by omega)]
  · rw [if_neg h32] at hn hws
    rw [hn] at hws ⊢
    obtain ⟨e0, e1⟩ := take_two hws
    rw [if_neg (by omega), if_neg (by omega), e0, e1]
    simp only [show ¬ (2 = 1) by omega, if_false, append_ofInt]
    rcases hk with hk | hk
    · rw [hk] at hv ⊢
      simp only [ParseNumber.Spec.Representable, reduceCtorEq, decide_false, Bool.false_eq_true, if_false] at hv
      have := pow_int_le hw2
      simp only
      rw [dec_nat, toNat_ofInt64 hv.1 (by omega)]
    · rw [hk] at hv ⊢
      simp only [ParseNumber.Spec.Representable, decide_true, if_true] at hv
      have := pow_int_le (show width - 1 ≤ 63 by omega)
      simp only
      rw [toInt_ofInt64 (by omega) (by omega)]

theorem decInt_head (v : Int) (c : Char) (h : (decInt v).head? = some c) : ParseNumber.isSpace c = false := by
  have hd : ∀ n, (dec n).head? = some c → ParseNumber.isSpace c = false := by
    intro n hc
    have := dec_digits n c (List.mem_of_mem_head? hc)
    cases hs : ParseNumber.isSpace c with
    | false => rfl
    | true =>
      exfalso
      simp only [ParseNumber.isSpace, Bool.or_eq_true, beq_iff_eq, decide_eq_true_eq, Bool.and_eq_true] at hs
      obtain ⟨a, b⟩ := this
      have e1 : (48 : Nat) ≤ c.toNat := a
      have e2 : c.toNat ≤ 57 := b
      have key : ∀ d : Char, c = d → c.toNat = d.toNat := fun d h => by rw [h]
      have hle : c.toNat ≤ 32 := by
        rcases hs with ((((h | h) | h) | h) | h) | h <;> (have := key _ h; rw [this]; decide)
      omega
  unfold decInt at h
  split at h
  · simp only [List.head?_cons, Option.some.injEq] at h; subst h; rfl
  · exact hd _ h

theorem encodeNumeric_int {A : AGrammar} {width : Nat} {signed : Bool} {enc : Nat} {v : Int} (hw : 1 ≤ width)
    (hw2 : width ≤ 64) (hv : ParseNumber.Spec.Representable width signed v) (opt : Bool) (i : Asm.Inst) :
    encodeNumericLiteral A (decInt v) opt ⟨width, signed, .int, enc⟩ i =
      .ok (i.add (ParseNumber.Spec.words width v)) := by
  have h := (ParseNumber.encodeInteger_spec width ⟨hw, hw2⟩ signed (decInt v) (decInt_head v) _).mpr
    ⟨v, decInt_literal hv, rfl⟩
  unfold encodeNumericLiteral numberTypeFor
  simp only
  have he : encodeNumber A (decInt v) ⟨width, if signed = true then .signedInt else .unsignedInt⟩ enc =
      ParseNumber.encodeInteger (some (decInt v)) (ParseNumber.intType width signed) := by
    cases signed <;> rfl
  rw [he, h]

/-- Floating point numbers. -/
theorem emitNumeric_float {N : Names} {x : Inst} {o : POperand} (ht : NumOT o.type)
    (hk : o.nkind = .floating) (h1 : 1 ≤ o.nwords) (h2 : o.nwords ≤ 2)
    (hl : o.offset + o.nwords ≤ x.words.length) :
    emitNumeric N x o = some (N.float o.width.toNat o.enc (operandWords x o)) := by
  unfold emitNumeric
  rw [if_neg (by rcases ht with h | h | h <;> simp [h]), if_neg (by omega), if_neg (by omega)]
  have e0 : x.words[o.offset]? = some (x.words[o.offset]'(by omega)) := List.getElem?_eq_getElem _
  rw [e0]
  simp only [hk]
  by_cases hn : o.nwords = 1
  · rw [if_pos hn]
    have : operandWords x o = [x.words[o.offset]'(by omega)] := by
      unfold operandWords
      rw [hn, List.drop_eq_getElem_cons (by omega), List.take_succ_cons, List.take_zero]
    rw [this]
  · have hn : o.nwords = 2 := by omega
    rw [if_neg (by omega)]
    have e1 : x.words[o.offset + 1]? = some (x.words[o.offset + 1]'(by omega)) := List.getElem?_eq_getElem _
    rw [e1]
    have : operandWords x o = [x.words[o.offset]'(by omega), x.words[o.offset + 1]'(by omega)] := by
      unfold operandWords
      rw [hn, List.drop_eq_getElem_cons (by omega), List.take_succ_cons, List.drop_eq_getElem_cons (by omega),
        List.take_succ_cons, List.take_zero]
    rw [this]

theorem float_solid {A : AGrammar} {N : Names} {width enc : Nat} {ws : List Word}
    (h : FloatOk A N width enc ws) : Solid (N.float width enc ws) := by
  obtain ⟨-, h1, h2⟩ := h
  have hl : ∀ c ∈ "0123456789abcdefABCDEFxXpPinIN.+-_".toList,
      plain c = true ∧ c ≠ 'O' ∧ c ≠ '%' ∧ c ≠ '!' ∧ c ≠ '=' := by decide
  have hp : ∀ c ∈ N.float width enc ws, _ := fun c hc => hl c (h2 c hc)
  refine solid_plain h1 (fun c hc => (hp c hc).1) (digit_not_op fun c hc => (hp c hc).2.1) ?_ ?_ ?_
  · intro hh; exact (hp _ (List.mem_of_mem_head? hh)).2.2.1 rfl
  · intro hh; exact (hp _ (List.mem_of_mem_head? hh)).2.2.2.1 rfl
  · intro hh; exact (hp '=' (by rw [hh]; simp)).2.2.2.2 rfl

theorem encodeNumeric_float {A : AGrammar} {N : Names} {width enc : Nat} {ws : List Word} {sg : Bool}
    (h : FloatOk A N width enc ws) (opt : Bool) (i : Asm.Inst) :
    encodeNumericLiteral A (N.float width enc ws) opt ⟨width, sg, .float, enc⟩ i = .ok (i.add ws) := by
  unfold encodeNumericLiteral numberTypeFor
  simp only [encodeNumber]
  rw [h.1]

end Verif.Disasm
