import Verif.Binary.Props
set_option linter.unusedSimpArgs false
set_option linter.unusedVariables false

/-! A small grammar of the required shape, and modules parsed with it. -/
namespace Verif.Binary.Example
open Verif.StringLit (Byte Word)

def opcodeTable : Nat → Option (List OT)
  | 5 => some [.ID, .LITERAL_STRING]
  | 11 => some [.RESULT_ID, .LITERAL_STRING]
  | 12 => some [.TYPE_ID, .RESULT_ID, .ID, .EXTENSION_INSTRUCTION_NUMBER, .VARIABLE_ID]
  | 17 => some [.CAPABILITY]
  | 21 => some [.RESULT_ID, .LITERAL_INTEGER, .LITERAL_INTEGER]
  | 43 => some [.TYPE_ID, .RESULT_ID, .TYPED_LITERAL_NUMBER]
  | 52 => some [.TYPE_ID, .RESULT_ID, .SPEC_CONSTANT_OP_NUMBER]
  | 54 => some [.TYPE_ID, .RESULT_ID, .FUNCTION_CONTROL, .ID]
  | 128 => some [.TYPE_ID, .RESULT_ID, .ID, .ID]
  | 251 => some [.ID, .ID, .VARIABLE_LITERAL_INTEGER_ID]
  | _ => none

def operandTable (t : OT) (v : Word) : Option (List OT) :=
  if t = .CAPABILITY ∧ v = 1#32 then some []
  else if t = .FUNCTION_CONTROL ∧ v = 1#32 then some [.LITERAL_INTEGER]
  else none

/-- A grammar with a dozen instructions. -/
def G : Grammar where
  opcode := opcodeTable
  operand := operandTable
  extInst := fun e v => if e = 1 ∧ v = 1#32 then some [.ID] else none
  extImport := fun s => if s = [97#8, 98#8] then 1 else 0
  nonSemantic := fun _ => false
  specConstOp := fun n => n = 128
  generatesType := fun n => n = 21 || n = 22
  fpEncoding := fun _ => 0

theorem G_ok : Spec.GrammarOk G where
  opcode := by
    intro op ops h l hl
    simp only [Spec.special, List.mem_cons, Prod.mk.injEq, List.not_mem_nil, or_false] at hl
    rcases hl with ⟨rfl, rfl⟩ | ⟨rfl, rfl⟩ | ⟨rfl, rfl⟩ | ⟨rfl, rfl⟩ | ⟨rfl, rfl⟩ | ⟨rfl, rfl⟩ | ⟨rfl, rfl⟩ | ⟨rfl, rfl⟩
    all_goals first
      | (simp [G, opcodeTable] at h; done)
      | (simp only [G, opcodeTable, Option.some.injEq] at h
         subst h
         exact ⟨_, rfl, by decide⟩)
  switch := by
    intro ops h
    simp only [G, opcodeTable, opSwitch, Option.some.injEq] at h
    subst h
    decide
  other := by
    intro op ops h h1 h2
    simp only [G] at h
    unfold opcodeTable at h
    split at h
    all_goals first
      | (simp at h; done)
      | (simp only [Option.some.injEq] at h; subst h; decide)
      | (exact absurd rfl h1)
      | (exfalso; exact h2 _ (by decide))
      | (exfalso; exact h2 [.RESULT_ID, .LITERAL_STRING] (by decide))
      | (exfalso; exact h2 [.RESULT_ID, .LITERAL_INTEGER, .LITERAL_INTEGER] (by decide))
      | (exfalso; exact h2 [.TYPE_ID, .RESULT_ID, .ID, .EXTENSION_INSTRUCTION_NUMBER] (by decide))
      | (exfalso; exact h2 [.TYPE_ID, .RESULT_ID, .TYPED_LITERAL_NUMBER] (by decide))
      | (exfalso; exact h2 [.TYPE_ID, .RESULT_ID, .SPEC_CONSTANT_OP_NUMBER] (by decide))
  operand := by
    intro t v ops h
    simp only [G, operandTable] at h
    split at h
    · simp only [Option.some.injEq] at h; subst h; simp
    · split at h
      · simp only [Option.some.injEq] at h; subst h; decide
      · simp at h
  extInst := by
    intro e v ops h
    simp only [G] at h
    split at h
    · simp only [Option.some.injEq] at h; subst h; decide
    · simp at h
  specConstOp := by
    intro op ops h1 h2
    simp only [G, decide_eq_true_eq] at h1
    subst h1
    simp only [G, opcodeTable, Option.some.injEq] at h2
    subst h2
    decide

/-! ### Evaluation with a step budget

Structural versions of the loops, only used to evaluate examples in the kernel. -/

def operandLoopF (G : Grammar) (unk swap : Bool) (ws : List Word) (off op stop : Nat) :
    Nat → MState → IState → Option LR
  | 0, _, _ => none
  | n + 1, m, i =>
    if m.idx < stop then
      match takeFirst i.expected with
      | none => some (.err cInvalidBinary)
      | some (t, p) =>
        match parseOperand G unk swap ws off op t m { i with expected := p } with
        | .err c => some (.err c)
        | .retry => some (.retry m i)
        | .fault => some .fault
        | .ok (m', i') => operandLoopF G unk swap ws off op stop n m' i'
    else some (.ok m i)

theorem operandLoopF_eq {G : Grammar} {unk swap : Bool} {ws : List Word} {off op stop : Nat} :
    ∀ (n : Nat) (m : MState) (i : IState) (r : LR),
    operandLoopF G unk swap ws off op stop n m i = some r → operandLoop G unk swap ws off op stop m i = r := by
  intro n
  induction n with
  | zero => intro m i r h; simp [operandLoopF] at h
  | succ n ih =>
    intro m i r h
    rw [operandLoopF] at h
    rw [operandLoop]
    split at h
    · rename_i hlt
      rw [if_pos hlt]
      split at h
      · rename_i ht
        split
        · simpa using h
        · rename_i h2; rw [ht] at h2; simp at h2
      · rename_i t p ht
        split
        · rename_i h2; rw [ht] at h2; simp at h2
        · rename_i h2
          rw [ht] at h2
          simp only [Option.some.injEq, Prod.mk.injEq] at h2
          obtain ⟨rfl, rfl⟩ := h2
          split at h <;> rename_i h3 <;> split <;> rename_i h4 <;> rw [h3] at h4 <;>
            simp only [reduceCtorEq, PR.err.injEq, PR.ok.injEq, Prod.mk.injEq] at h4
          · simp only [Option.some.injEq] at h; rw [← h, h4]
          · simpa using h
          · simpa using h
          · rw [← h4.1, ← h4.2]; exact ih _ _ _ h
    · rename_i hlt
      rw [if_neg hlt]
      simpa using h

def parseInstructionF (G : Grammar) (unk swap : Bool) (ws : List Word) (n : Nat) (m : MState) : Option IR :=
  match ws[m.idx]? with
  | none => some .fault
  | some raw =>
    let first := fixW swap raw
    let wc := wordCount first
    let op := opcodeOf first
    if wc < 1 then some (.err cInvalidBinary)
    else match G.opcode op with
      | none =>
        if unk then some (emitAsUnknown swap ws m.idx wc op 0 0 0 { m with idx := m.idx + 1 })
        else some (.err cInvalidBinary)
      | some ops =>
        match operandLoopF G unk swap ws m.idx op (m.idx + wc) n { m with idx := m.idx + 1 }
            ⟨0, 0, 0, [first], [], pushTypes ops []⟩ with
        | none => none
        | some (.err c) => some (.err c)
        | some .fault => some .fault
        | some (.retry m' i) => some (emitAsUnknown swap ws m.idx wc op i.typeId i.resultId i.extType m')
        | some (.ok m' i) => some (finishInst G swap ws m.idx wc op m' i)

theorem parseInstructionF_eq {G : Grammar} {unk swap : Bool} {ws : List Word} {n : Nat} {m : MState} {r : IR}
    (h : parseInstructionF G unk swap ws n m = some r) : parseInstruction G unk swap ws m = r := by
  unfold parseInstructionF at h
  unfold parseInstruction
  split at h
  · rename_i hr; rw [hr]; simpa using h
  · rename_i raw hr
    rw [hr]
    simp only at h ⊢
    split at h
    · rename_i hw; rw [if_pos hw]; simpa using h
    · rename_i hw
      rw [if_neg hw]
      split at h
      · rename_i ho
        rw [ho]
        simp only
        split at h
        · rename_i hu; rw [if_pos hu]; simpa using h
        · rename_i hu; rw [if_neg hu]; simpa using h
      · rename_i ops ho
        rw [ho]
        simp only
        split at h
        · simp at h
        all_goals
          rename_i hl
          rw [operandLoopF_eq _ _ _ _ hl]
          simpa using h

def traceF (G : Grammar) (unk swap : Bool) (ws : List Word) : Nat → MState → Option (List Inst × Int)
  | 0, _ => none
  | n + 1, m =>
    if m.idx < ws.length then
      match parseInstructionF G unk swap ws 1000 m with
      | none => none
      | some (.err c) => some ([], c)
      | some .fault => none
      | some (.inst m' x) => (traceF G unk swap ws n m').map fun r => (x :: r.1, r.2)
    else if m.idx ≠ ws.length then none
    else some ([], cSuccess)

theorem traceF_eq {G : Grammar} {unk swap : Bool} {ws : List Word} :
    ∀ (n : Nat) (m : MState) r, traceF G unk swap ws n m = some r → trace G unk swap ws m = some r := by
  intro n
  induction n with
  | zero => intro m r h; simp [traceF] at h
  | succ n ih =>
    intro m r h
    rw [traceF] at h
    split at h
    · rename_i hlt
      split at h
      · simp at h
      · rename_i c hp
        have := parseInstructionF_eq hp
        rw [trace, if_pos hlt]
        split <;> rename_i h1 <;> rw [this] at h1 <;> simp only [reduceCtorEq, IR.err.injEq] at h1
        rw [← h1]; exact h
      · simp at h
      · rename_i m' x hp
        rw [trace_cons (parseInstructionF_eq hp) hlt]
        obtain ⟨q, h1, h2⟩ := Option.map_eq_some_iff.1 h
        rw [ih _ _ h1, ← h2]; rfl
    · rename_i hlt
      rw [trace, if_neg hlt]
      exact h

/-- Evaluate the recording caller. -/
def observeF (G : Grammar) (host : Endian) (mv : Word) (unk : Bool) (ws : List Word) :
    Option ((Option (Endian × Header) × List Inst) × Int) :=
  if ws.length < 5 then none
  else match binaryEndianness host ws with
    | none => none
    | some e =>
      match headerGet host e mv ws with
      | some (some h) =>
        (traceF G unk (!isHostEndian host e) ws ws.length m5).map fun r => ((some (e, h), r.1), r.2)
      | _ => none

theorem observeF_eq {G : Grammar} {host : Endian} {mv : Word} {unk : Bool} {ws : List Word} {r}
    (h : observeF G host mv unk ws = some r) : Spec.observe G host mv unk ws = some r := by
  unfold observeF at h
  unfold Spec.observe parse
  split at h
  · simp at h
  · rename_i h5
    rw [if_neg h5]
    split at h
    · simp at h
    · rename_i e he
      split at h
      · rename_i hd hh
        obtain ⟨q, h1, h2⟩ := Option.map_eq_some_iff.1 h
        rw [he]
        simp only [hh, ne_eq, not_true_eq_false, if_false]
        rw [trace_of_moduleLoop]
        have := traceF_eq _ _ _ h1
        unfold m5 at this
        rw [this, ← h2]
        simp
      · simp at h

/-- `OpTypeInt %1 32 0`, `OpConstant %1 %2 7`, `OpSwitch %2 %3 5 %4`. -/
def mod1 : List Word :=
  [0x07230203#32, 0x00010000#32, 0#32, 10#32, 0#32,
   0x00040015#32, 1#32, 32#32, 0#32,
   0x0004002b#32, 1#32, 2#32, 7#32,
   0x000500fb#32, 2#32, 3#32, 5#32, 4#32]

/-- What the recording caller sees. -/
def seen1 : List Inst :=
  [⟨[0x00040015#32, 1#32, 32#32, 0#32], 21, 0, 0, 1,
     [⟨1, 1, .RESULT_ID, .none, 0, 0⟩, ⟨2, 1, .LITERAL_INTEGER, .unsigned, 32, 0⟩,
      ⟨3, 1, .LITERAL_INTEGER, .unsigned, 32, 0⟩], 3⟩,
   ⟨[0x0004002b#32, 1#32, 2#32, 7#32], 43, 0, 1, 2,
     [⟨1, 1, .TYPE_ID, .none, 0, 0⟩, ⟨2, 1, .RESULT_ID, .none, 0, 0⟩,
      ⟨3, 1, .TYPED_LITERAL_NUMBER, .unsigned, 32, 0⟩], 3⟩,
   ⟨[0x000500fb#32, 2#32, 3#32, 5#32, 4#32], 251, 0, 0, 0,
     [⟨1, 1, .ID, .none, 0, 0⟩, ⟨2, 1, .ID, .none, 0, 0⟩,
      ⟨3, 1, .TYPED_LITERAL_NUMBER, .unsigned, 32, 0⟩, ⟨4, 1, .ID, .none, 0, 0⟩], 4⟩]

/-- The hypotheses of `parse_tiles`, `parse_ids`, `parse_feed` and `parse_prefix` hold of a
module with a typed constant and a switch … -/
theorem mod1_seen : Spec.observe G .little 0x00010600#32 false mod1 =
    some ((some (.little, ⟨0x07230203#32, 0x00010000#32, 0#32, 10#32, 0#32⟩), seen1), 0) :=
  observeF_eq (by decide +kernel)

/-- … and of its byte-swapped copy, which a big-endian producer would write. -/
theorem mod1_swapped : Spec.observe G .little 0x00010600#32 false (mod1.map bswap) =
    some ((some (.big, ⟨0x07230203#32, 0x00010000#32, 0#32, 10#32, 0#32⟩), seen1), 0) :=
  observeF_eq (by decide +kernel)

example : opExtInstImport ∉ Spec.opcodes (Spec.hostOrder mod1) := by decide +kernel

example : Spec.HeaderOk 0x00010600#32 mod1 :=
  ⟨by decide, Or.inl rfl, 0x00010000#32, by decide +kernel, by decide, by decide, by decide, by decide⟩

/-- `OpExtInstImport %1 "ab"`. -/
def mod2 : List Word :=
  [0x07230203#32, 0x00010000#32, 0#32, 10#32, 0#32, 0x0003000b#32, 1#32, 0x00006261#32]

/-- C03 does not hold of modules that import an instruction set: the name is decoded
without converting its words to host order. -/
theorem parse_byte_order_import :
    (∃ x, Spec.insts G .little 0x00010600#32 false mod2 = some ([x], 0)) ∧
    Spec.insts G .little 0x00010600#32 false (mod2.map bswap) = some ([], -4) := by
  have h1 : Spec.observe G .little 0x00010600#32 false mod2 = some ((some (.little,
      ⟨0x07230203#32, 0x00010000#32, 0#32, 10#32, 0#32⟩),
      [⟨[0x0003000b#32, 1#32, 0x00006261#32], 11, 0, 0, 1,
        [⟨1, 1, .RESULT_ID, .none, 0, 0⟩, ⟨2, 1, .LITERAL_STRING, .none, 0, 0⟩], 2⟩]), 0) :=
    observeF_eq (by decide +kernel)
  have h2 : Spec.observe G .little 0x00010600#32 false (mod2.map bswap) = some ((some (.big,
      ⟨0x07230203#32, 0x00010000#32, 0#32, 10#32, 0#32⟩), []), -4) :=
    observeF_eq (by decide +kernel)
  unfold Spec.insts
  rw [h1, h2]
  exact ⟨⟨_, rfl⟩, rfl⟩

end Verif.Binary.Example
