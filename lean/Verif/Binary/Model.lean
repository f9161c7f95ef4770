import Verif.Binary.Operand
import Verif.StringLit.Model

/-!
# The binary parser  (source/binary.cpp, source/spirv_endian.cpp)

The caller's buffer is a list of words; a read is `ws[i]?` (or `slice`), and a read
outside the buffer is the outcome `fault`. A failed `assert` and a loop that would never
end are the same outcome. The grammar tables (generated from SPIRV-Headers, not part of
the repository) are the parameter `Grammar`. Diagnostics texts are not modelled, their
codes are. Positions are `Nat` (`size_t`).
-/
namespace Verif.Binary
open Verif.StringLit (Byte Word)

/-! ## Endianness, source/spirv_endian.cpp -/

inductive Endian where
  | little | big
  deriving DecidableEq, Repr

/-- The byte swap of `spvFixWord`, source/spirv_endian.cpp:37-38. -/
def bswap (w : Word) : Word :=
  (w &&& 0x000000ff#32) <<< 24 ||| (w &&& 0x0000ff00#32) <<< 8 |||
    (w &&& 0x00ff0000#32) >>> 8 ||| (w &&& 0xff000000#32) >>> 24

/-- `spvFixWord`, source/spirv_endian.cpp:34-42, on a host of byte order `host`. -/
def fixWord (host e : Endian) (w : Word) : Word :=
  if (e = .little ∧ host = .big) ∨ (e = .big ∧ host = .little) then bswap w else w

/-- `memcpy(bytes, &word, 4)` on the given host, source/spirv_endian.cpp:55. -/
def hostBytes (host : Endian) (w : Word) : List Byte :=
  let b (k : Nat) : Byte := (w >>> (8 * k)).truncate 8
  match host with
  | .little => [b 0, b 1, b 2, b 3]
  | .big => [b 3, b 2, b 1, b 0]

/-- `spvBinaryEndianness`, source/spirv_endian.cpp:49-69; `none` = error. -/
def binaryEndianness (host : Endian) (ws : List Word) : Option Endian :=
  match ws with
  | [] => none
  | w :: _ =>
    if hostBytes host w = [0x03#8, 0x02#8, 0x23#8, 0x07#8] then some .little
    else if hostBytes host w = [0x07#8, 0x23#8, 0x02#8, 0x03#8] then some .big
    else none

/-- `spvIsHostEndian`, source/spirv_endian.cpp:71-76. -/
def isHostEndian (host e : Endian) : Bool :=
  (decide (e = .little) && decide (host = .little)) || (decide (e = .big) && decide (host = .big))

/-- `spvFixWord` for a module that does (`swap`) or does not need conversion. -/
def fixW (swap : Bool) (w : Word) : Word := if swap then bswap w else w

/-- `spvOpcodeSplit`, source/opcode.cpp:63-71: word count and opcode. -/
def wordCount (first : Word) : Nat := ((first &&& 0xffff0000#32) >>> 16).toNat
def opcodeOf (first : Word) : Nat := (first &&& 0x0000ffff#32).toNat

/-! ## Header, source/binary.cpp:39-65 -/

structure Header where
  magic : Word
  version : Word
  generator : Word
  bound : Word
  schema : Word
  deriving DecidableEq, Repr

/-- `SPV_SPIRV_VERSION_WORD(1, 0)`. -/
def minVersion : Word := 0x00010000#32

/-- `spvBinaryHeaderGet`, source/binary.cpp:39-65. `maxVersion` is `SPV_VERSION` (defined
in SPIRV-Headers). `none` = `SPV_ERROR_INVALID_BINARY`; the outer `none` = a read outside
the buffer. -/
def headerGet (host e : Endian) (maxVersion : Word) (ws : List Word) : Option (Option Header) :=
  if ws.length < 5 then some none
  else match ws[0]?, ws[1]?, ws[2]?, ws[3]?, ws[4]? with
    | some w0, some w1, some w2, some w3, some w4 =>
      let v := fixWord host e w1
      if (v &&& 0x000000ff#32) ≠ 0 ∨ (v &&& 0xff000000#32) ≠ 0 then some none
      else if v < minVersion ∨ v > maxVersion then some none
      else some (some ⟨fixWord host e w0, v, fixWord host e w2, fixWord host e w3, fixWord host e w4⟩)
    | _, _, _, _, _ => none

/-! ## Grammar -/

/-- The tables the parser consults. -/
structure Grammar where
  /-- `LookupOpcode` by number: the operand types, source/table2.cpp:168-181. -/
  opcode : Nat → Option (List OT)
  /-- `LookupOperand` by value: the operands of an enumerant, source/table2.cpp:235-257. -/
  operand : OT → Word → Option (List OT)
  /-- `LookupExtInst` by value, source/table2.cpp:326-348. -/
  extInst : Nat → Word → Option (List OT)
  /-- `spvExtInstImportTypeGet`; 0 is `SPV_EXT_INST_TYPE_NONE`. -/
  extImport : List Byte → Nat
  /-- `spvExtInstIsNonSemantic`. -/
  nonSemantic : Nat → Bool
  /-- `AssemblyGrammar::lookupSpecConstantOpcode` succeeds,
  source/assembly_grammar.cpp:218-227. -/
  specConstOp : Nat → Bool
  /-- `spvOpcodeGeneratesType`, source/opcode.cpp:236-285. -/
  generatesType : Nat → Bool
  /-- `spvFPEncodingFromOperandFPEncoding`, source/operand.cpp:649-671. -/
  fpEncoding : Word → Nat

/-- Opcode numbers used by the parser itself. -/
def opExtInstImport : Nat := 11
def opExtInst : Nat := 12
def opTypeInt : Nat := 21
def opTypeFloat : Nat := 22
def opConstant : Nat := 43
def opSpecConstant : Nat := 50
def opSpecConstantOp : Nat := 52
def opSwitch : Nat := 251
def opExtInstWithForwardRefs : Nat := 4433

/-- `spvIsExtendedInstruction`, source/opcode.cpp:650-658. -/
def isExtended (op : Nat) : Bool := op = opExtInst || op = opExtInstWithForwardRefs

/-! ## Result codes, include/spirv-tools/libspirv.h:60-85 -/
def cSuccess : Int := 0
def cInternal : Int := -1
def cInvalidBinary : Int := -4
def cInvalidId : Int := -10

/-- Outcome of a parsing step. `retry` = an error with `retry_instruction_as_unknown_`
set. -/
inductive PR (α : Type) where
  | ok (a : α)
  | err (code : Int)
  | retry
  | fault

/-- `spv_number_kind_t`. -/
inductive NumKind where
  | none | unsigned | signed | floating
  deriving DecidableEq, Repr

/-- `Parser::NumberType`, source/binary.cpp:200-204. -/
structure NumType where
  kind : NumKind
  width : Word
  enc : Nat
  deriving DecidableEq, Repr

/-- The module-wide part of `Parser::State`, source/binary.cpp:207-253. -/
structure MState where
  idx : Nat
  idType : Word → Option Word
  numType : Word → Option NumType
  imports : Word → Option Nat

/-- `spv_parsed_operand_t`, include/spirv-tools/libspirv.h:456-471. -/
structure POperand where
  offset : Nat
  nwords : Nat
  type : OT
  nkind : NumKind
  width : Word
  enc : Nat
  deriving DecidableEq, Repr

/-- The per-instruction part of the state: the fields of `inst` filled in so far,
`endian_converted_words`, `operands`, `expected_operands`. -/
structure IState where
  typeId : Word
  resultId : Word
  extType : Nat
  conv : List Word
  operands : List POperand
  expected : Pattern

/-- `spv_parsed_instruction_t`, include/spirv-tools/libspirv.h:474-490. `numOperands`
is the 16-bit field; `operands` the whole vector it points to. -/
structure Inst where
  words : List Word
  opcode : Nat
  extType : Nat
  typeId : Word
  resultId : Word
  operands : List POperand
  numOperands : Nat
  deriving DecidableEq, Repr

/-- Words `[a, b)` of the buffer, if they exist. -/
def slice (ws : List Word) (a b : Nat) : Option (List Word) :=
  if b ≤ ws.length then some ((ws.drop a).take (b - a)) else none

/-- What the `switch` of `parseOperand` computes: operand size and number info, and the
updated states. -/
structure Eff where
  nwords : Nat
  nkind : NumKind
  width : Word
  enc : Nat
  m : MState
  i : IState

/-- `setNumericTypeInfoForType`, source/binary.cpp:893-913. The sum
`bit_width + 31` is a `uint32_t`, the result is cast to `uint16_t`. -/
def setNumericInfo (typeId : Word) (m : MState) (i : IState) : PR Eff :=
  if typeId = 0 then .fault
  else match m.numType typeId with
    | none => .err cInvalidBinary
    | some info =>
      if info.kind = .none then .err cInvalidBinary
      else .ok ⟨((info.width + 31#32).toNat / 32) % 65536, info.kind, info.width, info.enc, m, i⟩

/-- The mask loop of `parseOperand`, source/binary.cpp:831-845, at bit `k - 1`.
`ok` = the pattern; when no bits are left but `remaining` is not 0 the C++ loop would
never end. -/
def maskLoop (G : Grammar) (t : OT) (unk : Bool) : Nat → Word → Pattern → PR Pattern
  | 0, rem, p => if rem = 0 then .ok p else .fault
  | k + 1, rem, p =>
    if rem = 0 then .ok p
    else
      let mask : Word := 1#32 <<< k
      if (rem &&& mask) ≠ 0 then
        match G.operand t mask with
        | none => if unk then .retry else .err cInvalidBinary
        | some ops => maskLoop G t unk k (rem ^^^ mask) (pushTypes ops p)
      else maskLoop G t unk k rem p

/-- The `switch` of `parseOperand`, source/binary.cpp:503-857. `unk` is
`handle_unknown_opcodes_`, `swap` is `requires_endian_conversion`, `off` is
`inst_offset`, `word` the current word. -/
def effect (G : Grammar) (unk swap : Bool) (ws : List Word) (off op : Nat) (t : OT)
    (word : Word) (m : MState) (i : IState) : PR Eff :=
  let plain (i : IState) : PR Eff := .ok ⟨1, .none, 0, 0, m, i⟩
  match t.kind with
  | .typeId =>
    if word = 0 then .err cInvalidId else plain { i with typeId := word }
  | .resultId =>
    if word = 0 then .err cInvalidId
    else if (m.idType word).isSome then .err cInvalidId
    else
      let ty := if G.generatesType op then word else i.typeId
      .ok ⟨1, .none, 0, 0, { m with idType := fun x => if x = word then some ty else m.idType x },
        { i with resultId := word }⟩
  | .id =>
    if word = 0 then .err cInvalidId
    else if isExtended op && decide ((m.idx - off) % 65536 = 3) then
      match m.imports word with
      | none => .err cInvalidId
      | some e => plain { i with extType := e }
    else plain i
  | .scopeOrSem => if word = 0 then .err cInvalidBinary else plain i
  | .extInstNum =>
    if !isExtended op then .fault
    else if i.extType = 0 then .fault
    else match G.extInst i.extType word with
      | some ops =>
        let p := if G.nonSemantic i.extType then .VARIABLE_ID :: i.expected else i.expected
        plain { i with expected := pushTypes ops p }
      | none =>
        if !G.nonSemantic i.extType && !unk then .err cInvalidBinary
        else plain { i with expected := .VARIABLE_ID :: i.expected }
  | .specConstOp =>
    if op ≠ opSpecConstantOp then .fault
    else if word > 0x7fffffff#32 ∨ G.specConstOp word.toNat = false then .err cInvalidBinary
    else match G.opcode word.toNat with
      | none => .err cInternal
      | some ops =>
        if ops.length < 2 then .fault       -- lines 600-602; `hasType`/`hasResult` not modelled
        else plain { i with expected := pushTypes (ops.drop 2) i.expected }
  | .litInt => .ok ⟨1, .unsigned, 32#32, 0, m, i⟩
  | .litFloat => .ok ⟨1, .floating, 32#32, 0, m, i⟩
  | .typedLit =>
    if op = opSwitch then
      match ws[off + 1]? with
      | none => .fault
      | some raw =>
        let sel := fixW swap raw
        match m.idType sel with
        | none => .err cInvalidBinary
        | some ty =>
          if ty = 0 then .err cInvalidBinary
          else if sel = ty then .err cInvalidBinary
          else match setNumericInfo ty m i with
            | .ok e =>
              if e.nkind ≠ .unsigned ∧ e.nkind ≠ .signed then .err cInvalidBinary else .ok e
            | r => r
    else if op ≠ opConstant ∧ op ≠ opSpecConstant then .fault
    else setNumericInfo i.typeId m i        -- `type_id == 0` faults there, line 657
  | .str =>
    let s := (StringLit.makeString (ws.drop m.idx)).str
    if s.length = (ws.length - m.idx) * 4 then .err cInvalidBinary
    else
      let n := s.length / 4 + 1
      if n > 65535 then .err cInvalidBinary
      else if op = opExtInstImport then
        let e := G.extImport s
        if e = 0 then .err cInvalidBinary
        else if i.resultId = 0 then .fault
        else .ok ⟨n, .none, 0, 0,
          { m with imports := fun x => if x = i.resultId then some e else m.imports x }, i⟩
      else .ok ⟨n, .none, 0, 0, m, i⟩
  | .enum | .sourceLang =>
    match G.operand t word with
    | none => if unk then .retry else .err cInvalidBinary
    | some ops => plain { i with expected := pushTypes ops i.expected }
  | .mask =>
    match maskLoop G t unk 32 word i.expected with
    | .ok p =>
      if word = 0 then
        match G.operand t 0 with
        | some ops => plain { i with expected := pushTypes ops p }
        | none => plain { i with expected := p }
      else plain { i with expected := p }
    | .err c => .err c
    | .retry => .retry
    | .fault => .fault
  | .unhandled => .err cInvalidBinary

/-- `parseOperand`, source/binary.cpp:470-891. `swap` is `requires_endian_conversion`. -/
def parseOperand (G : Grammar) (unk swap : Bool) (ws : List Word) (off op : Nat) (t : OT)
    (m : MState) (i : IState) : PR (MState × IState) :=
  if m.idx ≥ ws.length then .err cInvalidBinary
  else match ws[m.idx]? with
    | none => .fault
    | some raw =>
      match effect G unk swap ws off op t (fixW swap raw) m i with
      | .err c => .err c
      | .retry => .retry
      | .fault => .fault
      | .ok e =>
        if !t.recorded.isConcrete then .fault
        else
          let o : POperand := ⟨(m.idx - off) % 65536, e.nwords, t.recorded, e.nkind, e.width, e.enc⟩
          let after := m.idx + e.nwords
          if ws.length < after then .err cInvalidBinary
          else match slice ws m.idx after with
            | none => .fault
            | some raws =>
              .ok ({ e.m with idx := after },
                { e.i with
                  operands := i.operands ++ [o]
                  conv := if swap then i.conv ++ raws.map bswap else i.conv })

/-! ### Termination of the operand loop

A typed literal can occupy zero words (a type of width 0), so the position alone is not a
measure. -/

theorem expandOnce_eq (t : OT) (p : Pattern) :
    (expandOnce t p = none ∧ t.isVariable = false) ∨
    ∃ a as, expandOnce t p = some (a :: as) ∧ t.isVariable = true ∧
      (a.kind = .typedLit → as.head? = some .ID) := by
  cases t <;> first
    | exact Or.inl ⟨rfl, rfl⟩
    | exact Or.inr ⟨_, _, rfl, rfl, by simp [OT.kind, OT.isEnum, OT.isMask]⟩

/-- Number of operands the parser can take from a pattern without consuming a word. -/
def zeroRun : Pattern → Nat
  | [] => 0
  | t :: p => if t.kind = .typedLit then zeroRun p + 1 else if t.isVariable then 1 else 0

theorem takeFirst_zeroRun {p q : Pattern} {t : OT} (h : takeFirst p = some (t, q))
    (ht : t.kind = .typedLit) : zeroRun q < zeroRun p := by
  cases p with
  | nil => simp [takeFirst] at h
  | cons a p =>
    simp only [takeFirst] at h
    rcases expandOnce_eq a p with ⟨h1, h2⟩ | ⟨b, bs, h1, h2, h3⟩
    · rw [h1] at h
      simp only [Option.some.injEq, Prod.mk.injEq] at h
      obtain ⟨rfl, rfl⟩ := h
      simp [zeroRun, ht]
    · rw [h1] at h
      simp only [Option.some.injEq, Prod.mk.injEq] at h
      obtain ⟨rfl, rfl⟩ := h
      have h3 := h3 ht
      cases bs with
      | nil => simp at h3
      | cons c cs =>
        simp only [List.head?_cons, Option.some.injEq] at h3
        subst h3
        have ha : a.kind ≠ .typedLit := by
          revert h2; cases a <;> simp [OT.isVariable, OT.kind, OT.isEnum, OT.isMask]
        simp only [zeroRun, ha, if_false, h2, if_true]
        simp [OT.kind, OT.isVariable]

theorem setNumericInfo_same {typeId : Word} {m : MState} {i : IState} {e : Eff}
    (h : setNumericInfo typeId m i = .ok e) : e.i = i ∧ e.m = m := by
  unfold setNumericInfo at h
  split at h
  · simp at h
  · split at h
    · simp at h
    · split at h
      · simp at h
      · simp only [PR.ok.injEq] at h; subst h; exact ⟨rfl, rfl⟩

theorem effect_progress {G : Grammar} {unk swap : Bool} {ws : List Word} {off op : Nat}
    {t : OT} {word : Word} {m : MState} {i : IState} {e : Eff}
    (h : effect G unk swap ws off op t word m i = .ok e) :
    1 ≤ e.nwords ∨ (t.kind = .typedLit ∧ e.i = i) := by
  unfold effect at h
  simp only at h
  split at h
  all_goals first
    | (rename_i hk
       refine Or.inr ⟨hk, ?_⟩
       repeat' split at h
       all_goals first
         | (exact (setNumericInfo_same h).1)
         | (simp only [PR.ok.injEq] at h; subst h; rename_i h1 _; exact (setNumericInfo_same h1).1)
         | (simp at h; done)
         | (simp only [PR.ok.injEq, reduceCtorEq] at h))
    | (refine Or.inl ?_
       repeat' split at h
       all_goals first
         | (simp only [PR.ok.injEq] at h; subst h; simp; done)
         | (simp only [reduceCtorEq] at h; done))

theorem parseOperand_progress {G : Grammar} {unk swap : Bool} {ws : List Word} {off op : Nat} {t : OT}
    {m m' : MState} {i i' : IState} (h : parseOperand G unk swap ws off op t m i = .ok (m', i')) :
    m.idx < m'.idx ∧ m'.idx ≤ ws.length ∨
      (m'.idx = m.idx ∧ t.kind = .typedLit ∧ i'.expected = i.expected) := by
  unfold parseOperand at h
  simp only at h
  split at h
  · simp at h
  · split at h
    · simp at h
    · split at h
      · simp at h
      · simp at h
      · simp at h
      · rename_i e he
        split at h
        · simp at h
        · split at h
          · simp at h
          · split at h
            · simp at h
            · simp only [PR.ok.injEq, Prod.mk.injEq] at h
              obtain ⟨rfl, rfl⟩ := h
              simp only
              rcases effect_progress he with h1 | ⟨h1, h2⟩
              · left; omega
              · by_cases h0 : e.nwords = 0
                · right; exact ⟨by omega, h1, by rw [h2]⟩
                · left; omega

/-- Outcome of the operand loop; a retry keeps the states reached. -/
inductive LR where
  | ok (m : MState) (i : IState)
  | err (code : Int)
  | retry (m : MState) (i : IState)
  | fault

/-- The operand loop of `parseInstruction`, source/binary.cpp:392-415; `stop` is
`inst_offset + inst_word_count`. -/
def operandLoop (G : Grammar) (unk swap : Bool) (ws : List Word) (off op stop : Nat) (m : MState)
    (i : IState) : LR :=
  if m.idx < stop then
    match ht : takeFirst i.expected with
    | none => .err cInvalidBinary
    | some (t, p) =>
      match h : parseOperand G unk swap ws off op t m { i with expected := p } with
      | .err c => .err c
      | .retry => .retry m i
      | .fault => .fault
      | .ok (m', i') => operandLoop G unk swap ws off op stop m' i'
  else .ok m i
termination_by (stop - m.idx, zeroRun i.expected)
decreasing_by
  rcases parseOperand_progress h with h1 | ⟨h1, h2, h3⟩
  · apply Prod.Lex.left; omega
  · simp only at h3
    rw [h1, h3]
    apply Prod.Lex.right
    exact takeFirst_zeroRun ht h2

/-- `recordNumberType`, source/binary.cpp:915-942. -/
def recordNumberType (G : Grammar) (swap : Bool) (ws : List Word) (off op nwords : Nat)
    (resultId : Word) (m : MState) : Option MState :=
  if G.generatesType op then
    let info : Option NumType :=
      if op = opTypeInt then
        match ws[off + 3]?, ws[off + 2]? with
        | some s, some w => some ⟨if fixW swap s ≠ 0 then .signed else .unsigned, fixW swap w, 0⟩
        | _, _ => none
      else if op = opTypeFloat then
        match ws[off + 2]? with
        | none => none
        | some w =>
          if nwords ≥ 4 then
            match ws[off + 3]? with
            | none => none
            | some x => some ⟨.floating, fixW swap w,
                if (G.operand .FPENCODING (fixW swap x)).isSome then G.fpEncoding (fixW swap x) else 0⟩
          else some ⟨.floating, fixW swap w, 0⟩
      else some ⟨.none, 0, 0⟩
    info.map fun n => { m with numType := fun x => if x = resultId then some n else m.numType x }
  else some m

/-- `parseInstruction`, source/binary.cpp:310-468, up to the callback: the instruction
handed to the callback and the state after it. -/
inductive IR where
  | inst (m : MState) (inst : Inst)
  | err (code : Int)
  | fault

/-- The lambda `emitAsUnknown`, source/binary.cpp:349-375. -/
def emitAsUnknown (swap : Bool) (ws : List Word) (off wc op : Nat) (typeId resultId : Word)
    (extType : Nat) (m : MState) : IR :=
  if off + wc > ws.length then .err cInvalidBinary
  else match slice ws off (off + wc) with
    | none => .fault
    | some raws =>
      .inst { m with idx := off + wc }
        ⟨if swap then raws.map bswap else raws, op, extType, typeId, resultId, [], 0⟩

/-- The condition of source/binary.cpp:417-418: a mandatory operand is still expected. -/
def moreExpected : Pattern → Bool
  | [] => false
  | t :: _ => !t.isOptional

/-- `parseInstruction` after the operand loop, source/binary.cpp:417-459. -/
def finishInst (G : Grammar) (swap : Bool) (ws : List Word) (off wc op : Nat) (m : MState)
    (i : IState) : IR :=
  if moreExpected i.expected then .err cInvalidBinary
  else if off + wc ≠ m.idx then .err cInvalidBinary
  else if swap && decide (wc ≠ i.conv.length) then .fault
  else if !swap && decide (i.conv.length ≠ 1) then .fault
  else
    match slice ws off (off + wc) with
    | none => .fault
    | some raws =>
      match recordNumberType G swap ws off op wc i.resultId m with
      | none => .fault
      | some m =>
        .inst m ⟨if swap then i.conv else raws, op, i.extType, i.typeId, i.resultId,
          i.operands, i.operands.length % 65536⟩

/-- `parseInstruction`, source/binary.cpp:310-468. -/
def parseInstruction (G : Grammar) (unk swap : Bool) (ws : List Word) (m : MState) : IR :=
  match ws[m.idx]? with
  | none => .fault
  | some raw =>
    let first := fixW swap raw
    let wc := wordCount first
    let op := opcodeOf first
    if wc < 1 then .err cInvalidBinary
    else match G.opcode op with
      | none =>
        if unk then emitAsUnknown swap ws m.idx wc op 0 0 0 { m with idx := m.idx + 1 }
        else .err cInvalidBinary
      | some ops =>
        match operandLoop G unk swap ws m.idx op (m.idx + wc) { m with idx := m.idx + 1 }
            ⟨0, 0, 0, [first], [], pushTypes ops []⟩ with
        | .err c => .err c
        | .fault => .fault
        | .retry m' i => emitAsUnknown swap ws m.idx wc op i.typeId i.resultId i.extType m'
        | .ok m' i => finishInst G swap ws m.idx wc op m' i

theorem recordNumberType_idx {G : Grammar} {swap : Bool} {ws : List Word} {off op n : Nat}
    {r : Word} {m m' : MState} (h : recordNumberType G swap ws off op n r m = some m') :
    m'.idx = m.idx ∧ m'.idType = m.idType ∧ m'.imports = m.imports := by
  unfold recordNumberType at h
  simp only at h
  split at h
  · obtain ⟨n, -, rfl⟩ := Option.map_eq_some_iff.1 h
    exact ⟨rfl, rfl, rfl⟩
  · simp only [Option.some.injEq] at h; subst h; exact ⟨rfl, rfl, rfl⟩

theorem emitAsUnknown_idx {swap : Bool} {ws : List Word} {off wc op : Nat} {a b : Word} {e : Nat}
    {m m' : MState} {x : Inst} (h : emitAsUnknown swap ws off wc op a b e m = .inst m' x) :
    m'.idx = off + wc ∧ m'.idx ≤ ws.length := by
  unfold emitAsUnknown at h
  split at h
  · simp at h
  · split at h
    · simp at h
    · simp only [IR.inst.injEq] at h
      obtain ⟨rfl, rfl⟩ := h
      exact ⟨rfl, by simp only; omega⟩

theorem slice_some {ws raws : List Word} {a b : Nat} (h : slice ws a b = some raws) :
    b ≤ ws.length ∧ raws = (ws.drop a).take (b - a) := by
  unfold slice at h
  split at h
  · simp only [Option.some.injEq] at h; exact ⟨by assumption, h.symm⟩
  · simp at h

theorem finishInst_inst {G : Grammar} {swap : Bool} {ws : List Word} {off wc op : Nat} {m m' : MState}
    {i : IState} {x : Inst} (h : finishInst G swap ws off wc op m i = .inst m' x) :
    (∀ t p, i.expected = t :: p → t.isOptional = true) ∧ m.idx = off + wc ∧
    (swap = true → i.conv.length = wc) ∧ off + wc ≤ ws.length ∧
    recordNumberType G swap ws off op wc i.resultId m = some m' ∧
    x = ⟨if swap then i.conv else (ws.drop off).take wc, op, i.extType, i.typeId, i.resultId,
          i.operands, i.operands.length % 65536⟩ := by
  unfold finishInst at h
  split at h
  · simp at h
  · rename_i h1
    split at h
    · simp at h
    · rename_i h2
      split at h
      · simp at h
      · rename_i h3
        split at h
        · simp at h
        · rename_i h4
          split at h
          · simp at h
          · rename_i hsl
            split at h
            · simp at h
            · rename_i hr
              simp only [IR.inst.injEq] at h
              obtain ⟨rfl, rfl⟩ := h
              obtain ⟨h5, h6⟩ := slice_some hsl
              refine ⟨?_, by omega, ?_, h5, hr, ?_⟩
              · intro t p he
                rw [he] at h1
                simpa [moreExpected] using h1
              · intro hs; simp [hs] at h3; omega
              · rw [h6, Nat.add_sub_cancel_left]

theorem parseInstruction_idx {G : Grammar} {unk swap : Bool} {ws : List Word} {m m' : MState}
    {x : Inst} (h : parseInstruction G unk swap ws m = .inst m' x) :
    m.idx < m'.idx ∧ m'.idx ≤ ws.length := by
  unfold parseInstruction at h
  split at h
  · simp at h
  · simp only at h
    split at h
    · simp at h
    · split at h
      · split at h
        · have := emitAsUnknown_idx h; omega
        · simp at h
      · split at h
        · simp at h
        · simp at h
        · have := emitAsUnknown_idx h; omega
        · obtain ⟨-, h1, -, h2, h3, -⟩ := finishInst_inst h
          have := (recordNumberType_idx h3).1
          omega

/-! ## The module loop -/

/-- Final outcome of `spvBinaryParse`: user state after the callbacks and the result
code; `none` = a fault. -/
abbrev Final (σ : Type) := Option (σ × Int)

/-- `while (_.word_index < _.num_words) parseInstruction()`, source/binary.cpp:301-302,
with the callback call of lines 463-465. -/
def moduleLoop {σ : Type} (G : Grammar) (unk swap : Bool) (cb : σ → Inst → σ × Int)
    (ws : List Word) (m : MState) (s : σ) : Final σ :=
  if m.idx < ws.length then
    match h : parseInstruction G unk swap ws m with
    | .err c => some (s, c)
    | .fault => none
    | .inst m' x =>
      let (s, c) := cb s x
      if c ≠ 0 then some (s, c) else moduleLoop G unk swap cb ws m' s
  else if m.idx ≠ ws.length then none      -- the assertion of line 305
  else some (s, cSuccess)
termination_by ws.length - m.idx
decreasing_by have := parseInstruction_idx h; omega

/-- `spvBinaryParse` (`Parser::parse`, `Parser::parseModule`), source/binary.cpp:256-308,
946-971, on a non-null buffer. A null callback behaves as one that returns
`SPV_SUCCESS`. The header callback gets the endianness as well. -/
def parse {σ : Type} (G : Grammar) (host : Endian) (maxVersion : Word) (unk : Bool)
    (hcb : σ → Endian → Header → σ × Int) (cb : σ → Inst → σ × Int) (ws : List Word) (s : σ) :
    Final σ :=
  if ws.length < 5 then some (s, cInvalidBinary)
  else match binaryEndianness host ws with
    | none => some (s, cInvalidBinary)
    | some e =>
      match headerGet host e maxVersion ws with
      | none => none
      | some none => some (s, cInternal)
      | some (some h) =>
        let (s, c) := hcb s e h
        if c ≠ 0 then some (s, c)
        else moduleLoop G unk (!isHostEndian host e) cb ws
          ⟨5, fun _ => none, fun _ => none, fun _ => none⟩ s

end Verif.Binary
