import Verif.Asm.Strings
/-!
C15: word counts of assembled instructions, and termination of the assembler loop.
-/
set_option linter.unusedSimpArgs false
set_option linter.unusedVariables false
namespace Verif.Asm
open Verif.ParseNumber (Text)
open Verif.Binary (OT Pattern pushTypes takeFirst)

namespace Spec

/-- The first word of an instruction says how many words it has, and which opcode. -/
def CountOk (words : List Word) (opcode : Nat) : Prop :=
  words.length ≤ 65535 ∧ ∃ w, words.head? = some w ∧ w.toNat / 65536 = words.length ∧
    w.toNat % 65536 = opcode

/-- The opcode numbers of a grammar fit in half a word. -/
def NarrowOpcodes (G : AGrammar) : Prop := ∀ name d, G.opcodeByName name = some d → d.opcode < 65536

/-- `t` begins with the instruction `name`, with or without a result id. -/
inductive Begins : (t : Text) → (name : Text) → Prop where
  | plain {t name r} : startsWithOp t = true → getWord t = (name, r) → Begins t name
  | result {t w r r1 r2 r3 name r4} : getWord t = (w, r) → w.head? = some '%' →
      advance r = some r1 → getWord r1 = (['='], r2) → advance r2 = some r3 →
      startsWithOp r3 = true → getWord r3 = (name, r4) → Begins t name

end Spec
open Spec

theorem opcodeMake_toNat {n op : Nat} (hn : n ≤ 65535) (ho : op < 65536) :
    (opcodeMake n op).toNat = n * 65536 + op := by
  unfold opcodeMake
  simp only [BitVec.toNat_or, BitVec.toNat_shiftLeft, BitVec.toNat_ofNat]
  rw [Nat.mod_eq_of_lt (show op < 2 ^ 32 by omega), Nat.mod_eq_of_lt (show n < 2 ^ 32 by omega)]
  have h1 : n <<< 16 = n * 65536 := by rw [Nat.shiftLeft_eq]
  rw [h1, Nat.mod_eq_of_lt (show n * 65536 < 2 ^ 32 by omega), Nat.or_comm]
  have := Nat.two_pow_add_eq_or_of_lt (i := 16) (b := op) (by omega) n
  rw [Nat.mul_comm] at this
  exact this.symm

/-! ### What an operand does to the words -/

theorem ne_nil_of_prefix {α : Type} {a b : List α} (h : a <+: b) (ha : a ≠ []) : b ≠ [] := by
  intro hb
  subst hb
  exact ha (List.prefix_nil.mp h)

theorem encodeNumericLiteral_prefix {G : AGrammar} {s : Text} {o : Bool} {t : IdType} {i i' : Inst}
    (h : encodeNumericLiteral G s o t i = .ok i') : i.words <+: i'.words ∧ i'.opcode = i.opcode := by
  unfold encodeNumericLiteral at h
  split at h
  · cases h
  · split at h
    · cases h; exact ⟨List.prefix_append .., rfl⟩
    · split at h <;> cases h
    · cases h

theorem appendToVector_prefix (bs : List (BitVec 8)) (out : List StringLit.Word) :
    out <+: StringLit.appendToVector bs out := by
  rw [appendToVector_eq_append]
  exact List.prefix_append ..

theorem encodeString_prefix {s : Text} {i i' : Inst} (h : encodeString s i = .ok i') :
    i.words <+: i'.words ∧ i'.opcode = i.opcode := by
  unfold encodeString at h
  split at h
  · cases h
  · cases h; exact ⟨appendToVector_prefix .., rfl⟩

theorem encodeImmediate_prefix {s : Text} {i i' : Inst} (h : encodeImmediate s i = .ok i') :
    i.words <+: i'.words ∧ i'.opcode = i.opcode := by
  unfold encodeImmediate at h
  split at h
  · cases h
  · cases h; exact ⟨List.prefix_append .., rfl⟩

theorem encodeId_prefix {P : List Nat} {t : OT} {s : Text} {st st' : S}
    (h : encodeId P t s st = .ok st') :
    st.inst.words <+: st'.inst.words ∧ st'.inst.opcode = st.inst.opcode := by
  unfold encodeId at h
  split at h
  · split at h
    · cases h
    · split at h
      · cases h
      · dsimp only at h
        generalize hj : (if t = OT.TYPE_ID then _ else _ : Inst) = j at h
        have hj' : j.words = st.inst.words ∧ j.opcode = st.inst.opcode := by
          subst hj; split <;> exact ⟨rfl, rfl⟩
        split at h
        · split at h
          · cases h
          · cases h
          · cases h; exact ⟨by rw [← hj'.1]; exact List.prefix_append .., hj'.2⟩
        · cases h; exact ⟨by rw [← hj'.1]; exact List.prefix_append .., hj'.2⟩
  · cases h

theorem encodeStr_prefix {G : AGrammar} {t : OT} {s : Text} {st st' : S}
    (h : encodeStr G t s st = .ok st') :
    st.inst.words <+: st'.inst.words ∧ st'.inst.opcode = st.inst.opcode := by
  unfold encodeStr at h
  split at h
  · cases h
  · split at h <;> cases h
  · split at h
    · dsimp only at h
      split at h
      · cases h
      · split at h
        · cases h
        · split at h
          · cases h
          · split at h
            · rename_i hi; cases h; exact encodeString_prefix hi
            · cases h
    · split at h
      · rename_i hi; cases h; exact encodeString_prefix hi
      · cases h
  · cases h

theorem encodeNum_prefix {G : AGrammar} {t : OT} {s : Text} {ty : IdType} {st st' : S}
    (h : encodeNum G t s ty st = .ok st') :
    st.inst.words <+: st'.inst.words ∧ st'.inst.opcode = st.inst.opcode := by
  unfold encodeNum at h
  split at h
  · rename_i hi; cases h; exact encodeNumericLiteral_prefix hi
  · cases h
  · cases h
  · cases h

theorem encodeTyped_prefix {G : AGrammar} {t : OT} {s : Text} {st st' : S}
    (h : encodeTyped G t s st = .ok st') :
    st.inst.words <+: st'.inst.words ∧ st'.inst.opcode = st.inst.opcode := by
  unfold encodeTyped at h
  split at h
  · dsimp only at h
    split at h
    · exact encodeNum_prefix h
    · cases h
  · split at h
    · split at h
      · cases h
      · dsimp only at h
        split at h
        · exact encodeNum_prefix h
        · cases h
    · exact encodeNum_prefix h

theorem encodeBasic_prefix {G : AGrammar} {P : List Nat} {t : OT} {s : Text} {st st' : S}
    (h : encodeBasic G P t s st = .ok st') :
    st.inst.words <+: st'.inst.words ∧ st'.inst.opcode = st.inst.opcode := by
  unfold encodeBasic at h
  split at h
  · exact encodeId_prefix h
  · split at h
    · cases h; exact ⟨List.prefix_append .., rfl⟩
    · split at h
      · cases h
      · split at h
        · cases h; exact ⟨List.prefix_append .., rfl⟩
        · cases h
  · split at h
    · cases h
    · split at h
      · cases h
      · split at h
        · cases h
        · cases h; exact ⟨List.prefix_append .., rfl⟩
  · exact encodeNum_prefix h
  · exact encodeNum_prefix h
  · exact encodeNum_prefix h
  · exact encodeTyped_prefix h
  · exact encodeStr_prefix h
  · split at h
    · cases h
    · cases h; exact ⟨List.prefix_append .., rfl⟩
  · cases h
  · split at h
    · cases h
    · cases h; exact ⟨List.prefix_append .., rfl⟩

theorem encodeOperand_prefix {G : AGrammar} {P : List Nat} {t : OT} {s : Text} {st st' : S}
    (h : encodeOperand G P t s st = .ok st') :
    st.inst.words <+: st'.inst.words ∧ st'.inst.opcode = st.inst.opcode := by
  unfold encodeOperand at h
  split at h
  · split at h
    · rename_i hi; cases h; exact encodeImmediate_prefix hi
    · cases h
  · split at h
    · dsimp only at h
      split at h
      · rename_i st1 heq
        have hpre : st.inst.words <+: st1.inst.words ∧ st1.inst.opcode = st.inst.opcode := by
          split at heq
          · exact encodeBasic_prefix heq
          · split at heq
            · exact encodeBasic_prefix heq
            · exact encodeBasic_prefix heq
        cases h
        split <;> exact hpre
      · cases h
      · cases h
      · cases h
    · exact encodeBasic_prefix h

/-- An operand that begins with `!` always matches. -/
theorem encodeOperand_failed {G : AGrammar} {P : List Nat} {t : OT} {s : Text} {st : S}
    (h : encodeOperand G P t s st = .failed) : s.head? ≠ some '!' := by
  intro hs
  unfold encodeOperand at h
  rw [if_pos hs] at h
  split at h <;> cases h

/-! ### Positions -/

theorem advanceTo_idem (s : Text) : advanceTo (advanceTo s) = advanceTo s := by
  fun_induction advanceTo s with
  | case1 => rw [advanceTo]
  | case2 => rw [advanceTo]; simp
  | case3 s _ ih => exact ih
  | case4 c s _ _ _ ih => exact ih
  | case5 c s h1 h2 h3 => rw [advanceTo]; simp [h1, h2, h3]

theorem advance_eq {s r : Text} (h : advance s = some r) : r = advanceTo s := by
  unfold advance at h
  split at h
  · cases h
  · rename_i heq
    split at h
    · cases h
    · cases h; exact heq.symm

theorem advance_idem {s r : Text} (h : advance s = some r) : advance r = some r := by
  have he := advance_eq h
  unfold advance at h ⊢
  rw [he, advanceTo_idem]
  rw [he] at h
  exact h

theorem getWord_head {s r : Text} {c : Char} {w : Text} (h : getWord s = (c :: w, r)) :
    s.head? = some c := by
  unfold getWord at h
  cases s with
  | nil => cases h
  | cons d s =>
    unfold getWordFrom at h
    split at h
    · simp only [Prod.mk.injEq, List.cons.injEq] at h; simp [h.1.1]
    · split at h
      · simp only [Prod.mk.injEq, List.cons.injEq] at h; simp [h.1.1]
      · split at h
        · cases h
        · split at h
          · cases h
          · simp only [Prod.mk.injEq, List.cons.injEq] at h; simp [h.1.1]

/-- Where no new instruction starts, reading an instruction is an error. -/
theorem readOpcode_notStart {s : Text} (ha : advance s = some s) (h : isStartOfNewInst s = some false) :
    readOpcode s = .err := by
  unfold isStartOfNewInst at h
  rw [ha] at h
  simp only at h
  split at h
  · cases h
  · rename_i hop
    unfold readOpcode
    simp only [hop, Bool.false_eq_true, if_false]
    split at h
    · cases h
    · rename_i c w r heq
      rw [heq]
      simp only
      split at h
      · rename_i hc; rw [if_pos hc]
      · rename_i hc
        rw [if_neg hc]
        split at h
        · rename_i hr; rw [hr]
        · rename_i r1 hr
          rw [hr]
          simp only
          generalize hg : getWord r1 = q at h ⊢
          obtain ⟨eq, r2⟩ := q
          simp only at h ⊢
          split at h
          · rename_i he; rw [if_pos he]
          · rename_i he
            rw [if_neg he]
            split at h
            · rename_i hr2; rw [hr2]
            · rename_i r3 hr2
              rw [hr2]
              simp only [Option.some.injEq] at h ⊢
              simp [h]

/-! ### The operand loop -/

theorem operandLoop_spec (G : AGrammar) (P : List Nat) (result : Text) (st : S) (s : Text) :
    match operandLoop G P result st s with
    | .done st' r => st.inst.words <+: st'.inst.words ∧ st'.inst.opcode = st.inst.opcode ∧ r.length ≤ s.length
    | .early _ r => advance r = some r ∧ isStartOfNewInst r = some false ∧ r.head? ≠ some '!' ∧
        r.length ≤ s.length
    | _ => True := by
  fun_induction operandLoop G P result st s <;> try trivial
  case case1 => exact ⟨List.prefix_refl _, rfl, Nat.le_refl _⟩
  case case2 st' s t p ht hr st2 he ih =>
    have hp := encodeId_prefix he
    revert ih
    split
    · intro ih; exact ⟨hp.1.trans ih.1, ih.2.1.trans hp.2, ih.2.2⟩
    · exact id
    · exact id
  case case6 => exact ⟨List.prefix_refl _, rfl, by simp⟩
  case case9 => rename_i ha _ _; exact ⟨List.prefix_refl _, rfl, advance_length ha⟩
  case case12 =>
    rename_i st s t p ht hr s1 ha hs w r hw hne st2 he ih
    have hp := encodeOperand_prefix he
    have h1 := advance_length ha
    have h2 := getWord_length hw hne
    revert ih
    split
    · intro ih; exact ⟨hp.1.trans ih.1, ih.2.1.trans hp.2, by have := ih.2.2; omega⟩
    · intro ih; exact ⟨ih.1, ih.2.1, ih.2.2.1, by have := ih.2.2.2; omega⟩
    · exact id
  case case13 =>
    rename_i st s t p ht hr s1 ha hs w r hw hne he ho
    refine ⟨advance_idem ha, hs, ?_, advance_length ha⟩
    cases w with
    | nil => exact absurd rfl hne
    | cons c w =>
      rw [getWord_head hw]
      exact encodeOperand_failed he

theorem finish_spec {G : AGrammar} {d : OpDesc} {ctx ctx' : Ctx} {i i' : Inst}
    (h : finish G d ctx i = .ok (ctx', i')) :
    i.words.length ≤ 65535 ∧ i'.words = i.words.set 0 (opcodeMake i.words.length d.opcode) := by
  unfold finish at h
  dsimp only at h
  generalize (if G.generatesType i.opcode then _ else _ : R Ctx) = q at h
  cases q <;> simp only [reduceCtorEq] at h
  split at h
  · cases h
  · rename_i hm
    cases h
    refine ⟨?_, rfl⟩
    unfold maxWords at hm
    omega

theorem startsWithOp_head {s : Text} (h : startsWithOp s = true) : s.head? = some 'O' := by
  unfold startsWithOp at h
  split at h
  · simp at h; simp [h.1]
  · cases h

theorem readOpcode_begins {s res name r : Text} (h : readOpcode s = .ok (res, name, r)) :
    Begins s name ∧ r.length < s.length := by
  unfold readOpcode at h
  have hword : ∀ {t : Text} {n k : Text}, startsWithOp t = true → getWord t = (n, k) → k.length < t.length := by
    intro t n k hs hg
    refine getWord_length hg ?_
    rintro rfl
    unfold startsWithOp at hs
    split at hs
    · simp only [Bool.and_eq_true, beq_iff_eq] at hs
      obtain ⟨⟨rfl, rfl⟩, _⟩ := hs
      unfold getWord getWordFrom at hg
      simp [isDelim] at hg
    · cases hs
  generalize hg : getWord s = q at h
  obtain ⟨w, r0⟩ := q
  simp only at h
  split at h
  · rename_i hs
    simp only [R.ok.injEq, Prod.mk.injEq] at h
    obtain ⟨rfl, rfl, rfl⟩ := h
    exact ⟨.plain hs hg, hword hs hg⟩
  · split at h
    · cases h
    · rename_i c w'
      split at h
      · cases h
      · rename_i hc
        split at h
        · cases h
        · rename_i r1 hr
          generalize hg1 : getWord r1 = q at h
          obtain ⟨eq, r2⟩ := q
          simp only at h
          split at h
          · cases h
          · rename_i he
            split at h
            · cases h
            · rename_i r3 hr2
              generalize hg3 : getWord r3 = q at h
              obtain ⟨nm, r4⟩ := q
              simp only at h
              split at h
              · rename_i hs
                simp only [R.ok.injEq, Prod.mk.injEq] at h
                obtain ⟨rfl, rfl, rfl⟩ := h
                have hc' : c = '%' := by simpa using hc
                have he' : eq = ['='] := by simpa using he
                subst hc' he'
                refine ⟨.result hg rfl hr hg1 hr2 hs hg3, ?_⟩
                have h1 := getWord_length hg (by simp)
                have h2 := advance_length hr
                have h3 := getWord_length hg1 (by simp)
                have h4 := advance_length hr2
                have h5 := hword hs hg3
                omega
              · cases h

theorem immLoop_length (G : AGrammar) (P : List Nat) (ctx : Ctx) (i : Inst) (s : Text) :
    ∀ c j r, immLoop G P ctx i s = .ok (c, j, r) → r.length ≤ s.length := by
  fun_induction immLoop G P ctx i s <;> intro c j r h <;> try (cases h; done)
  case case1 => cases h; simp
  case case3 => rename_i ha _; cases h; exact advance_length ha
  case case6 =>
    rename_i s s1 ha _ w r' hw hne _ st hst ih
    have h1 := ih c j r h
    have h2 := advance_length ha
    have h3 := getWord_length hw hne
    omega

theorem expectChar_length {c : Char} {s r : Text} (h : expectChar c s = some r) : r.length < s.length := by
  unfold expectChar at h
  split at h
  · rename_i d r' ha
    split at h
    · cases h
      have := advance_length ha
      simp at this
      omega
    · cases h
  · cases h

theorem expectU16_length {s r : Text} {n : Nat} (h : expectU16 s = some (n, r)) : r.length ≤ s.length := by
  unfold expectU16 at h
  split at h
  · cases h
  · rename_i s1 ha
    generalize hg : getWord s1 = q at h
    obtain ⟨w, r'⟩ := q
    simp only at h
    split at h
    · cases h
    · simp only [Option.some.injEq, Prod.mk.injEq] at h
      obtain ⟨_, rfl⟩ := h
      have h1 := advance_length ha
      have h2 := getWordFrom_length false false s1
      unfold getWord at hg
      rw [hg] at h2
      simp only at h2
      omega

theorem unknownLoop_length (G : AGrammar) (P : List Nat) (n : Nat) (ctx : Ctx) (i : Inst) (s : Text) :
    ∀ c j r, unknownLoop G P n ctx i s = .ok (c, j, r) → r.length ≤ s.length := by
  induction n generalizing ctx i s with
  | zero => intro c j r h; cases h; exact Nat.le_refl _
  | succ n ih =>
    intro c j r h
    unfold unknownLoop at h
    split at h
    · cases h
    · rename_i s1 ha
      split at h
      · cases h
      · cases h
      · generalize hg : getWord s1 = q at h
        obtain ⟨w, r'⟩ := q
        simp only at h
        split at h
        · cases h
        · split at h
          · have h0 := ih _ _ _ c j r h
            have h1 := advance_length ha
            have h2 := getWordFrom_length false false s1
            unfold getWord at hg
            rw [hg] at h2
            simp only at h2
            omega
          all_goals cases h

theorem encodeOpUnknown_length {G : AGrammar} {P : List Nat} {ctx c : Ctx} {s r : Text} {j : Inst}
    (h : encodeOpUnknown G P ctx s = .ok (c, j, r)) : r.length ≤ s.length := by
  unfold encodeOpUnknown at h
  split at h
  · cases h
  · rename_i h1
    have h1 := expectChar_length h1
    split at h
    · cases h
    · rename_i h2
      have h2 := expectU16_length h2
      split at h
      · cases h
      · rename_i h3
        have h3 := expectChar_length h3
        split at h
        · cases h
        · rename_i h4
          have h4 := expectU16_length h4
          split at h
          · cases h
          · split at h
            · cases h
            · rename_i h5
              have h5 := expectChar_length h5
              have h6 := unknownLoop_length _ _ _ _ _ _ _ _ _ h
              omega

/-- What one call of `spvTextEncodeOpcode` leaves. -/
theorem encodeOpcode_spec {G : AGrammar} (hG : NarrowOpcodes G) {P : List Nat} {ctx ctx' : Ctx} {s r : Text}
    {i : Inst} (h : encodeOpcode G P ctx s = .ok (ctx', i, r)) :
    r.length < s.length ∧
    (s.head? = some '!' ∨ (∃ k, getWord s = ("OpUnknown".toList, k)) ∨
      (∃ name d, Begins s name ∧ G.opcodeByName (name.drop 2) = some d ∧ CountOk i.words d.opcode) ∨
      (advance r = some r ∧ isStartOfNewInst r = some false ∧ r.head? ≠ some '!')) := by
  unfold encodeOpcode at h
  split at h
  · rename_i hb
    refine ⟨?_, .inl hb⟩
    unfold encodeStartingWithImmediate at h
    generalize hg : getWord s = q at h
    obtain ⟨w, r0⟩ := q
    simp only at h
    split at h
    · have h1 := immLoop_length _ _ _ _ _ _ _ _ h
      have : w ≠ [] := by
        rintro rfl
        cases s with
        | nil => cases hb
        | cons c s =>
          simp at hb
          subst hb
          unfold getWord getWordFrom at hg
          simp [isDelim] at hg
      have := getWord_length hg this
      omega
    · cases h
  · split at h
    · cases h
    · cases h
    · cases h
    · rename_i res name r0 hro
      obtain ⟨hbeg, hlen⟩ := readOpcode_begins hro
      split at h
      · rename_i hn
        split at h
        · cases h
        · rename_i hres
          have := encodeOpUnknown_length h
          refine ⟨by omega, .inr (.inl ?_)⟩
          subst hn
          unfold readOpcode at hro
          generalize hg : getWord s = q at hro
          obtain ⟨w, r1⟩ := q
          simp only at hro
          split at hro
          · simp only [R.ok.injEq, Prod.mk.injEq] at hro
            obtain ⟨_, rfl, _⟩ := hro
            exact ⟨r1, rfl⟩
          · split at hro
            · cases hro
            · split at hro
              · cases hro
              · split at hro
                · cases hro
                · generalize getWord _ = q at hro
                  obtain ⟨eq, r2⟩ := q
                  simp only at hro
                  split at hro
                  · cases hro
                  · split at hro
                    · cases hro
                    · generalize getWord _ = q at hro
                      obtain ⟨eq, r2⟩ := q
                      simp only at hro
                      split at hro
                      · simp only [R.ok.injEq, Prod.mk.injEq] at hro
                        obtain ⟨rfl, _⟩ := hro
                        simp at hres
                      · cases hro
      · split at h
        · cases h
        · rename_i d hd
          split at h
          · cases h
          · split at h
            · cases h
            · have hl := operandLoop_spec G P res ⟨ctx, ⟨[0], d.opcode, 0, 0⟩, d.operands⟩ r0
              split at h
              · rename_i st rest heq
                rw [heq] at hl
                simp only at hl
                split at h
                · rename_i c j hf
                  simp only [R.ok.injEq, Prod.mk.injEq] at h
                  obtain ⟨rfl, rfl, rfl⟩ := h
                  obtain ⟨f1, f2⟩ := finish_spec hf
                  refine ⟨by omega, .inr (.inr (.inl ⟨name, d, hbeg, hd, ?_⟩))⟩
                  obtain ⟨⟨t, ht⟩, _, _⟩ := hl
                  rw [← ht] at f1 f2
                  simp only [List.singleton_append, List.set_cons_zero, List.length_cons] at f1 f2
                  rw [f2]
                  refine ⟨by simpa using f1, _, rfl, ?_, ?_⟩
                  · rw [opcodeMake_toNat f1 (hG _ _ hd)]
                    have := hG _ _ hd
                    simp only [List.length_cons]
                    omega
                  · rw [opcodeMake_toNat f1 (hG _ _ hd)]
                    have := hG _ _ hd
                    omega
                all_goals cases h
              · rename_i st rest heq
                rw [heq] at hl
                simp only at hl
                simp only [R.ok.injEq, Prod.mk.injEq] at h
                obtain ⟨rfl, rfl, rfl⟩ := h
                exact ⟨by omega, .inr (.inr (.inr ⟨hl.1, hl.2.1, hl.2.2.1⟩))⟩
              all_goals cases h

theorem encodeOpcode_notStart {G : AGrammar} {P : List Nat} {ctx : Ctx} {s : Text}
    (ha : advance s = some s) (h : isStartOfNewInst s = some false) (hb : s.head? ≠ some '!') :
    encodeOpcode G P ctx s = .err := by
  unfold encodeOpcode
  rw [if_neg hb, readOpcode_notStart ha h]

/-- Where an instruction that was emitted began, and what is known of it. -/
def Spec.Emitted (G : AGrammar) (t : Text) (i : Inst) : Prop :=
  t.head? = some '!' ∨ (∃ k, getWord t = ("OpUnknown".toList, k)) ∨
    ∃ name d, Begins t name ∧ G.opcodeByName (name.drop 2) = some d ∧ CountOk i.words d.opcode

/-- The instructions of a text, one after another, with the positions where they
    begin: `Assembled s [(t1, i1), (t2, i2), ...]`. -/
inductive Spec.Assembled (G : AGrammar) (P : List Nat) : Ctx → Text → List (Text × Inst) → Ctx → Prop where
  | last {ctx s ctx' i r} : encodeOpcode G P ctx s = .ok (ctx', i, r) → advance r = none →
      Assembled G P ctx s [(s, i)] ctx'
  | cons {ctx s ctx1 i r r1 l ctx'} : encodeOpcode G P ctx s = .ok (ctx1, i, r) → advance r = some r1 →
      Assembled G P ctx1 r1 l ctx' → Assembled G P ctx s ((s, i) :: l) ctx'

theorem assembleLoop_spec {G : AGrammar} (hG : NarrowOpcodes G) {P : List Nat} (fuel : Nat) (ctx : Ctx)
    (s : Text) (out : List Inst) (ctx' : Ctx) (is : List Inst)
    (h : assembleLoop G P fuel ctx s out = .ok (ctx', is)) :
    ∃ l : List (Text × Inst), is = out ++ l.map (·.2) ∧ Assembled G P ctx s l ctx' := by
  induction fuel generalizing ctx s out with
  | zero => cases h
  | succ fuel ih =>
    unfold assembleLoop at h
    split at h
    · rename_i ctx1 i r he
      split at h
      · rename_i ha
        simp only [R.ok.injEq, Prod.mk.injEq] at h
        obtain ⟨rfl, rfl⟩ := h
        exact ⟨[(s, i)], rfl, .last he ha⟩
      · rename_i r1 ha
        obtain ⟨l, hl, hA⟩ := ih _ _ _ h
        exact ⟨(s, i) :: l, by simp [hl], .cons he ha hA⟩
    all_goals cases h

theorem assembled_emitted {G : AGrammar} (hG : NarrowOpcodes G) {P : List Nat} {ctx ctx' : Ctx} {s : Text}
    {l : List (Text × Inst)} (h : Assembled G P ctx s l ctx') : ∀ e ∈ l, Emitted G e.1 e.2 := by
  induction h with
  | last he ha =>
    intro e hm
    simp only [List.mem_singleton] at hm
    subst hm
    rcases (encodeOpcode_spec hG he).2 with h | h | h | h
    · exact .inl h
    · exact .inr (.inl h)
    · exact .inr (.inr h)
    · rw [ha] at h; cases h.1
  | cons he ha hA ih =>
    rename_i ctx s ctx1 i r r1 l ctx'
    intro e hm
    rcases List.mem_cons.mp hm with rfl | hm
    · rcases (encodeOpcode_spec hG he).2 with h | h | h | h
      · exact .inl h
      · exact .inr (.inl h)
      · exact .inr (.inr h)
      · obtain ⟨h1, h2, h3⟩ := h
        rw [ha] at h1
        cases h1
        have he2 := encodeOpcode_notStart (G := G) (P := P) (ctx := ctx1) ha h2 h3
        cases hA with
        | last h _ => rw [he2] at h; cases h
        | cons h _ _ => rw [he2] at h; cases h
    · exact ih e hm

/-- The loop always comes to an end: more fuel changes nothing. -/
theorem assembleLoop_fuel {G : AGrammar} (hG : NarrowOpcodes G) {P : List Nat} (f g : Nat) (ctx : Ctx)
    (s : Text) (out : List Inst) (hf : s.length < f) (hg : s.length < g) :
    assembleLoop G P f ctx s out = assembleLoop G P g ctx s out := by
  induction f generalizing g ctx s out with
  | zero => omega
  | succ f ih =>
    cases g with
    | zero => omega
    | succ g =>
      unfold assembleLoop
      split
      · rename_i ctx1 i r he
        have h1 := (encodeOpcode_spec hG he).1
        split
        · rfl
        · rename_i r1 ha
          have h2 := advance_length ha
          exact ih _ _ _ _ (by omega) (by omega)
      all_goals rfl

theorem run_spec {G : AGrammar} (hG : NarrowOpcodes G) {P : List Nat} {s : Text} {ctx : Ctx} {is : List Inst}
    (h : run G P s = .ok (ctx, is)) :
    ∃ l : List (Text × Inst), is = l.map (·.2) ∧ (∀ e ∈ l, Emitted G e.1 e.2) ∧
      ((l = [] ∧ advanceTo s = []) ∨ Assembled G P .init (advanceTo s) l ctx) := by
  unfold run at h
  dsimp only at h
  split at h
  · rename_i he
    cases h
    exact ⟨[], rfl, by simp, .inl ⟨rfl, he⟩⟩
  · obtain ⟨l, hl, hA⟩ := assembleLoop_spec hG _ _ _ _ _ _ h
    exact ⟨l, by simpa using hl, assembled_emitted hG hA, .inr hA⟩

/-- C15.  When the assembler succeeds, the words of the module are a header of five
    words and the words of the instructions of the text (in order, `l` gives with each the
    text from its beginning on), and each instruction written with an opcode name other
    than `OpUnknown` has at most 65535 words, the number of its words in the upper half of
    its first word and the opcode the name stands for in the lower half. -/
theorem assemble_counts {G : AGrammar} (hG : NarrowOpcodes G) {version : Word} {b : Bool} {s : Text}
    {words : List Word} (h : assemble G version b s = .ok words) :
    ∃ (P : List Nat) (hd : List Word) (l : List (Text × Inst)) (ctx : Ctx), hd.length = 5 ∧
      words = hd ++ l.flatMap (·.2.words) ∧
      ((l = [] ∧ advanceTo s = []) ∨ Assembled G P .init (advanceTo s) l ctx) ∧
      ∀ e ∈ l, Emitted G e.1 e.2 := by
  unfold assemble at h
  dsimp only at h
  split at h
  · rename_i p hp
    split at h
    · rename_i ctx is hr
      cases h
      obtain ⟨l, h1, h2, h3⟩ := run_spec hG hr
      refine ⟨p, [0x07230203#32, version, 0x00070000#32, BitVec.ofNat 32 ctx.ids.bound, 0], l, ctx, rfl, ?_, h3, h2⟩
      subst h1
      simp [List.flatMap_map]
    all_goals cases h
  all_goals cases h

end Verif.Asm
