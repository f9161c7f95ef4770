import Verif.Asm.Lex
import Verif.Binary.Model
/-!
# The assembler  (source/text.cpp, source/text_handler.cpp)

From text to words.  The grammar tables are the parameter `AGrammar`; the encoding
of floating point literals is part of it.  Diagnostics are reduced to the
distinction the code makes: success, `SPV_FAILED_MATCH`, any other error.
Undefined behaviour and failed assertions are the outcome `fault`.
-/
namespace Verif.Asm
open Verif.ParseNumber (Text Status NumberType)
open Verif.Binary (OT Pattern pushTypes takeFirst isExtended opExtInstImport opTypeInt opTypeFloat
  opConstant opSpecConstant opSwitch)

abbrev Word := BitVec 32

/-- Outcome of an assembler function. -/
inductive R (α : Type) where
  | ok (a : α)
  | failed
  | err
  | fault

/-- An opcode table entry (`InstructionDesc`, source/table2.h). -/
structure OpDesc where
  opcode : Nat
  hasResult : Bool
  hasType : Bool
  operands : List OT

/-- The tables the assembler consults. -/
structure AGrammar where
  /-- `LookupOpcodeForEnv` by name without the "Op". -/
  opcodeByName : Text → Option OpDesc
  /-- `LookupOpcodeForEnv` by number. -/
  opcodeByNumber : Nat → Option OpDesc
  /-- `lookupSpecConstantOpcode` by name (assembly_grammar.cpp:205-216). -/
  specOpByName : Text → Option Nat
  /-- `LookupOperand` by name: value and operands. -/
  operandByName : OT → Text → Option (Word × List OT)
  /-- `LookupOperand` by value: operands. -/
  operandByValue : OT → Word → Option (List OT)
  /-- `LookupExtInst` by name: value and operands. -/
  extInstByName : Nat → Text → Option (Word × List OT)
  /-- `spvExtInstImportTypeGet`; 0 is `SPV_EXT_INST_TYPE_NONE`. -/
  extImport : Text → Nat
  nonSemantic : Nat → Bool
  /-- `spvOpcodeGeneratesType`. -/
  generatesType : Nat → Bool
  /-- The encoding of `FPENCODING` and whether it fits the width
      (`spvFPEncodingFromOperandFPEncoding`, `validBitWidthForFPEncoding`). -/
  fpEncoding : Word → Nat
  fpWidthOk : Nat → Word → Bool
  /-- `ParseAndEncodeFloatingPointNumber` (util/parse_number.cpp:150-299), by width
      and encoding. -/
  encodeFloat : Text → Nat → Nat → Status × List Word

/-- `IdTypeClass`, `IdType` (text_handler.h:36-51). -/
inductive TypeClass where
  | bottom | int | float | other
deriving DecidableEq

structure IdType where
  width : Nat
  signed : Bool
  cls : TypeClass
  enc : Nat
deriving DecidableEq

/-- `kUnknownType` (text_handler.cpp:192). -/
def unknownType : IdType := ⟨0, false, .bottom, 0⟩

/-- The ids of an `AssemblyContext`: `named_ids_`, `bound_`, `next_id_`
    (text_handler.h:255-267).  Ids are `uint32_t`; the model keeps the numbers below
    `2 ^ 32` explicitly. -/
structure Ids where
  named : List (Text × Nat)
  bound : Nat
  next : Nat

def Ids.init : Ids := ⟨[], 1, 1⟩

/-- The rest of the context. -/
structure Ctx where
  ids : Ids
  types : Word → Option IdType
  valueTypes : Word → Option Word
  imports : Word → Option Nat

def Ctx.init : Ctx := ⟨.init, fun _ => none, fun _ => none, fun _ => none⟩

/-- `uint32_t` addition of one. -/
def succ32 (n : Nat) : Nat := (n + 1) % 2 ^ 32

/-- The loop that skips preserved ids (text_handler.cpp:212-218): the id and
    `next_id_`.  `none` means that the fuel ran out. -/
def freshId (preserve : List Nat) : (fuel : Nat) → (next : Nat) → Option (Nat × Nat)
  | 0, _ => none
  | fuel + 1, next =>
    if preserve.contains next then freshId preserve fuel (succ32 next)
    else some (next, succ32 next)

/-- `ParseNumber(text, &uint32)` as a natural number. -/
def parseU32 (s : Text) : Option Nat := (ParseNumber.parseNumber ParseNumber.u32 s).map Int.toNat

/-- `spvNamedIdAssignOrGet` (text_handler.cpp:198-224).  `none`: no id is free. -/
def assignOrGet (preserve : List Nat) (ids : Ids) (name : Text) : Option (Nat × Ids) :=
  match (if preserve = [] then none else (parseU32 name).filter preserve.contains) with
  | some id => some (id, { ids with bound := max ids.bound (succ32 id) })
  | none =>
    match ids.named.lookup name with
    | some id => some (id, ids)
    | none =>
      match freshId preserve (preserve.length + 1) ids.next with
      | none => none
      | some (id, next) =>
        some (id, ⟨(name, id) :: ids.named, max ids.bound (succ32 id), next⟩)

/-- `GetNumericIds` (text_handler.cpp:446-453). -/
def numericIds (ids : Ids) : List Nat := ids.named.filterMap (fun kv => parseU32 kv.1)

/-- `spv_instruction_t` (source/instruction.h). -/
structure Inst where
  words : List Word
  opcode : Nat
  typeId : Word
  extType : Nat

/-- A value-initialised `spv_instruction_t`. -/
def Inst.init : Inst := ⟨[], 0, 0, 0⟩

def Inst.add (i : Inst) (ws : List Word) : Inst := { i with words := i.words ++ ws }

/-- The byte a character stands for. -/
def byteOf (c : Char) : BitVec 8 := BitVec.ofNat 8 c.toNat

/-- `SPV_LIMIT_INSTRUCTION_WORD_COUNT_MAX`. -/
def maxWords : Nat := 0xffff

/-- `ParseAndEncodeNumber` (parse_number.cpp:301-322). -/
def encodeNumber (G : AGrammar) (s : Text) (t : NumberType) (enc : Nat) : Status × List Word :=
  match t.kind with
  | .none => (.invalidUsage, [])
  | .floating => G.encodeFloat s t.bitwidth enc
  | _ => ParseNumber.encodeInteger (some s) t

/-- The number type chosen in `binaryEncodeNumericLiteral`
    (text_handler.cpp:283-316); `none` is `SPV_ERROR_INTERNAL`. -/
def numberTypeFor (s : Text) (t : IdType) : Option NumberType :=
  match t.cls with
  | .other => none
  | .int => some ⟨t.width, if t.signed then .signedInt else .unsignedInt⟩
  | .float => some ⟨t.width, .floating⟩
  | .bottom =>
    if s.contains '.' then some ⟨32, .floating⟩
    else if t.signed = true ∨ s.head? = some '-' then some ⟨32, .signedInt⟩
    else some ⟨32, .unsignedInt⟩

/-- `binaryEncodeNumericLiteral` (text_handler.cpp:280-338).  `opt`: the error code
    for texts that are no numbers is `SPV_FAILED_MATCH`. -/
def encodeNumericLiteral (G : AGrammar) (s : Text) (opt : Bool) (t : IdType) (i : Inst) : R Inst :=
  match numberTypeFor s t with
  | none => .err
  | some nt =>
    match encodeNumber G s nt t.enc with
    | (.success, ws) => .ok (i.add ws)
    | (.invalidText, _) => if opt then .failed else .err
    | _ => .err

/-- `binaryEncodeString` (text_handler.cpp:340-358). -/
def encodeString (s : Text) (i : Inst) : R Inst :=
  if i.words.length + (s.length / 4 + 1) > maxWords then .err
  else .ok { i with words := StringLit.appendToVector (s.map byteOf) i.words }

/-- `spvAlternatePatternFollowingImmediate` (operand.cpp:469-482); the head of the
    list is the back of the vector. -/
def alternatePattern (p : Pattern) : Pattern :=
  match p.findIdx? (· == .RESULT_ID) with
  | some k => List.replicate k .OPTIONAL_CIV ++ [.RESULT_ID, .OPTIONAL_CIV]
  | none => [.OPTIONAL_CIV]

/-- `encodeImmediate` (text.cpp:159-171) without the change of position, which the
    callers do. -/
def encodeImmediate (s : Text) (i : Inst) : R Inst :=
  match parseU32 (s.drop 1) with
  | none => .err
  | some n => .ok (i.add [BitVec.ofNat 32 n])

/-- The text up to the next separator, and what follows it if there is one. -/
def splitBar : Text → Text × Option Text
  | [] => ([], none)
  | c :: s =>
    if c = '|' then ([], some s)
    else
      let (a, b) := splitBar s
      (c :: a, b)

theorem splitBar_length {s : Text} {a r : Text} (h : splitBar s = (a, some r)) : r.length < s.length := by
  induction s generalizing a with
  | nil => cases h
  | cons c s ih =>
    unfold splitBar at h
    split at h
    · cases h; simp
    · generalize hg : splitBar s = q at h
      obtain ⟨x, y⟩ := q
      simp only [Prod.mk.injEq] at h
      obtain ⟨rfl, rfl⟩ := h
      have := ih hg
      simp
      omega

/-- The loop of `spvTextParseMaskOperand` (assembly_grammar.cpp:59-75). -/
def parseMaskLoop (G : AGrammar) (t : OT) (s : Text) (value : Word) : Option Word :=
  match h : splitBar s with
  | (a, r) =>
    match G.operandByName t a with
    | none => none
    | some (v, _) =>
      match r, h with
      | none, _ => some (value ||| v)
      | some r, h => parseMaskLoop G t r (value ||| v)
termination_by s.length
decreasing_by exact splitBar_length h

/-- `spvTextParseMaskOperand` (assembly_grammar.cpp:44-79). -/
def parseMask (G : AGrammar) (t : OT) (s : Text) : Option Word :=
  if s = [] then none else parseMaskLoop G t s 0

/-- `spvPushOperandTypesForMask` (operand.cpp:266-280), for the bits below `k`. -/
def pushMask (G : AGrammar) (t : OT) (mask : Word) : Nat → Pattern → Pattern
  | 0, p => p
  | k + 1, p =>
    let bit : Word := 1#32 <<< k
    if (bit &&& mask) ≠ 0 then
      match G.operandByValue t bit with
      | some ops => pushMask G t mask k (pushTypes ops p)
      | none => pushMask G t mask k p
    else pushMask G t mask k p

/-- The labels of the `switch` of `spvTextEncodeOperand` (text.cpp:208-486). -/
inductive AKind where
  | id | extInstNum | specConstOp | litInt | litFloat | litNumber | typedLit | str | mask | civ | enum
deriving DecidableEq

def aKind : OT → AKind
  | .ID | .TYPE_ID | .RESULT_ID | .MEMORY_SEMANTICS_ID | .SCOPE_ID | .OPTIONAL_ID => .id
  | .EXTENSION_INSTRUCTION_NUMBER => .extInstNum
  | .SPEC_CONSTANT_OP_NUMBER => .specConstOp
  | .LITERAL_INTEGER | .OPTIONAL_LITERAL_INTEGER => .litInt
  | .LITERAL_FLOAT => .litFloat
  | .OPTIONAL_LITERAL_NUMBER => .litNumber
  | .OPTIONAL_TYPED_LITERAL_INTEGER | .TYPED_LITERAL_NUMBER => .typedLit
  | .LITERAL_STRING | .OPTIONAL_LITERAL_STRING => .str
  | .FP_FAST_MATH_MODE | .FUNCTION_CONTROL | .LOOP_CONTROL | .IMAGE | .OPTIONAL_IMAGE
  | .TENSOR_OPERANDS | .OPTIONAL_TENSOR_OPERANDS | .OPTIONAL_MEMORY_ACCESS
  | .OPTIONAL_RAW_ACCESS_CHAIN_OPERANDS | .SELECTION_CONTROL | .DEBUG_INFO_FLAGS
  | .CLDEBUG100_DEBUG_INFO_FLAGS | .OPTIONAL_COOPERATIVE_MATRIX_OPERANDS
  | .TENSOR_ADDRESSING_OPERANDS | .COOPERATIVE_MATRIX_REDUCE
  | .OPTIONAL_MATRIX_MULTIPLY_ACCUMULATE_OPERANDS => .mask
  | .OPTIONAL_CIV => .civ
  | _ => .enum

/-- `getTypeOfTypeGeneratingValue`, `getTypeOfValueInstruction`
    (text_handler.cpp:404-419). -/
def typeOfType (c : Ctx) (v : Word) : IdType := (c.types v).getD unknownType
def typeOfValue (c : Ctx) (v : Word) : IdType :=
  match c.valueTypes v with
  | none => unknownType
  | some t => typeOfType c t

/-- State of the encoding of one instruction. -/
structure S where
  ctx : Ctx
  inst : Inst
  expected : Pattern

/-- The id operands (text.cpp:209-242). -/
def encodeId (preserve : List Nat) (t : OT) (s : Text) (st : S) : R S :=
  match s with
  | '%' :: name =>
    if isValidId name = false then .err
    else
      match assignOrGet preserve st.ctx.ids name with
      | none => .fault
      | some (id, ids) =>
        let w : Word := BitVec.ofNat 32 id
        let inst := if t = .TYPE_ID then { st.inst with typeId := w } else st.inst
        let inst := inst.add [w]
        let ctx := { st.ctx with ids := ids }
        if isExtended inst.opcode ∧ inst.words.length = 4 then
          match ctx.imports w with
          | none => .err
          | some 0 => .err
          | some e => .ok { st with ctx := ctx, inst := { inst with extType := e } }
        else .ok { st with ctx := ctx, inst := inst }
  | _ => .err

/-- Strings (text.cpp:382-411). -/
def encodeStr (G : AGrammar) (t : OT) (s : Text) (st : S) : R S :=
  match textToLiteral s with
  | .outOfMemory => .err
  | .failedMatch => if t.isOptional then .failed else .err
  | .str str =>
    if st.inst.opcode = opExtInstImport then
      let e := G.extImport str
      if e = 0 then .err
      else
        match st.inst.words[1]? with
        | none => .fault
        | some w =>
          if (st.ctx.imports w).isSome then .err
          else
            match encodeString str st.inst with
            | .ok i => .ok { st with
                inst := i
                ctx := { st.ctx with imports := fun x => if x = w then some e else st.ctx.imports x } }
            | _ => .err
    else
      match encodeString str st.inst with
      | .ok i => .ok { st with inst := i }
      | _ => .err
  | _ => .err

/-- Numbers of a given type. -/
def encodeNum (G : AGrammar) (t : OT) (s : Text) (ty : IdType) (st : S) : R S :=
  match encodeNumericLiteral G s t.isOptional ty st.inst with
  | .ok i => .ok { st with inst := i }
  | .failed => .failed
  | .err => .err
  | .fault => .fault

/-- Typed literals (text.cpp:344-380). -/
def encodeTyped (G : AGrammar) (t : OT) (s : Text) (st : S) : R S :=
  if st.inst.opcode = opConstant ∨ st.inst.opcode = opSpecConstant then
    let ty := typeOfType st.ctx st.inst.typeId
    if ty.cls = .int ∨ ty.cls = .float then encodeNum G t s ty st else .err
  else if st.inst.opcode = opSwitch then
    match st.inst.words[1]? with
    | none => .fault
    | some w =>
      let ty := typeOfValue st.ctx w
      if ty.cls = .int then encodeNum G t s ty st else .err
  else encodeNum G t s unknownType st

/-- `spvTextEncodeOperand` (text.cpp:183-489), apart from `OPTIONAL_CIV`. -/
def encodeBasic (G : AGrammar) (preserve : List Nat) (t : OT) (s : Text) (st : S) : R S :=
  match aKind t with
  | .id => encodeId preserve t s st
  | .extInstNum =>
    match G.extInstByName st.inst.extType s with
    | some (v, ops) =>
      let p := if G.nonSemantic st.inst.extType then .VARIABLE_ID :: st.expected else st.expected
      .ok { st with inst := st.inst.add [v], expected := pushTypes ops p }
    | none =>
      if G.nonSemantic st.inst.extType = false then .err
      else
        match textToLiteral s with
        | .u32 n => .ok { st with
            inst := st.inst.add [BitVec.ofNat 32 n], expected := .VARIABLE_ID :: st.expected }
        | _ => .err
  | .specConstOp =>
    match G.specOpByName s with
    | none => .err
    | some op =>
      match G.opcodeByNumber op with
      | none => .err
      | some d =>
        if d.hasType = false ∨ d.hasResult = false ∨ d.operands.length < 2 then .fault
        else .ok { st with
          inst := st.inst.add [BitVec.ofNat 32 d.opcode]
          expected := pushTypes (d.operands.drop 2) st.expected }
  | .litInt => encodeNum G t s ⟨32, false, .int, 0⟩ st
  | .litFloat => encodeNum G t s ⟨32, false, .float, 0⟩ st
  | .litNumber => encodeNum G t s unknownType st
  | .typedLit => encodeTyped G t s st
  | .str => encodeStr G t s st
  | .mask =>
    match parseMask G t s with
    | none => .err
    | some v => .ok { st with inst := st.inst.add [v], expected := pushMask G t v 32 st.expected }
  | .civ => .fault      -- handled by the caller
  | .enum =>
    match G.operandByName t s with
    | none => .err
    | some (v, ops) => .ok { st with inst := st.inst.add [v], expected := pushTypes ops st.expected }

/-- `spvTextEncodeOperand` (text.cpp:183-489).  The `OPTIONAL_CIV` case calls the
    function again with three other types; a text that begins with `!` does not
    get there. -/
def encodeOperand (G : AGrammar) (preserve : List Nat) (t : OT) (s : Text) (st : S) : R S :=
  if s.head? = some '!' then
    match encodeImmediate s st.inst with
    | .ok i => .ok { st with inst := i, expected := alternatePattern st.expected }
    | _ => .err
  else if t = .OPTIONAL_CIV then
    let r := encodeBasic G preserve .OPTIONAL_LITERAL_NUMBER s st
    let r := match r with
      | .failed => encodeBasic G preserve .OPTIONAL_LITERAL_STRING s st
      | r => r
    let r := match r with
      | .failed => encodeBasic G preserve .OPTIONAL_ID s st
      | r => r
    match r with
    | .ok st => .ok (if st.expected = [] then { st with expected := [.OPTIONAL_CIV] } else st)
    | .failed => .failed
    | .err => .err
    | .fault => .fault
  else encodeBasic G preserve t s st

/-! ### Lengths, for termination -/

theorem getWordFrom_length (q e : Bool) (s : Text) :
    (getWordFrom q e s).1.length + (getWordFrom q e s).2.length = s.length := by
  induction s generalizing q e with
  | nil => rfl
  | cons c s ih =>
    unfold getWordFrom
    split
    · have := ih q (!e); simp; omega
    · split
      · have := ih (if e then q else !q) false; simp; omega
      · split
        · simp
        · split
          · simp
          · have := ih q false; simp; omega

theorem getWord_length {s w r : Text} (h : getWord s = (w, r)) (hw : w ≠ []) : r.length < s.length := by
  have := getWordFrom_length false false s
  unfold getWord at h
  rw [h] at this
  have : 0 < w.length := List.length_pos_iff.mpr hw
  simp at *
  omega

theorem advanceTo_length (s : Text) : (advanceTo s).length ≤ s.length := by
  fun_induction advanceTo s with
  | case1 => simp
  | case2 => simp
  | case3 s _ ih => have := advanceLine_length s; simp; omega
  | case4 c s _ _ _ ih => simp; omega
  | case5 => simp

theorem advance_length {s r : Text} (h : advance s = some r) : r.length ≤ s.length := by
  have := advanceTo_length s
  unfold advance at h
  split at h
  · cases h
  · rename_i c r' heq
    split at h
    · cases h
    · cases h; rw [heq] at this; exact this

/-- The words after an immediate at the start of an instruction
    (`encodeInstructionStartingWithImmediate`, text.cpp:507-531): the state and the
    remaining text.  The pattern is the dummy of :523. -/
def immLoop (G : AGrammar) (preserve : List Nat) (ctx : Ctx) (inst : Inst) (s : Text) :
    R (Ctx × Inst × Text) :=
  match ha : advance s with
  | none => .ok (ctx, inst, [])
  | some s1 =>
    match isStartOfNewInst s1 with
    | none => .fault
    | some true => .ok (ctx, inst, s1)
    | some false =>
      match hw : getWord s1 with
      | (w, r) =>
        if hne : w = [] then .fault      -- excluded by `isStartOfNewInst`
        else if w = ['='] then .err
        else
          match encodeOperand G preserve .OPTIONAL_CIV w ⟨ctx, inst, []⟩ with
          | .ok st => immLoop G preserve st.ctx st.inst r
          | .failed => .failed
          | .err => .err
          | .fault => .fault
termination_by s.length
decreasing_by
  have := advance_length ha
  have := getWord_length hw hne
  omega

/-- `encodeInstructionStartingWithImmediate` (text.cpp:496-532). -/
def encodeStartingWithImmediate (G : AGrammar) (preserve : List Nat) (ctx : Ctx) (s : Text) :
    R (Ctx × Inst × Text) :=
  let (w, r) := getWord s
  match encodeImmediate w .init with
  | .ok i => immLoop G preserve ctx i r
  | _ => .err

/-- `spvOpcodeMake` (opcode.cpp:59-61). -/
def opcodeMake (wordCount : Nat) (opcode : Nat) : Word :=
  BitVec.ofNat 32 opcode ||| (BitVec.ofNat 32 wordCount <<< 16)

/-- One punctuation character (text.cpp:551-558 and alike): the text after it. -/
def expectChar (c : Char) (s : Text) : Option Text :=
  match advance s with
  | some (d :: r) => if d = c then some r else none
  | _ => none

/-- A number up to 65535 (text.cpp:561-573 and alike): the number and the text
    after it. -/
def expectU16 (s : Text) : Option (Nat × Text) :=
  match advance s with
  | none => none
  | some s1 =>
    let (w, r) := getWord s1
    match ParseNumber.parseNumber ⟨false, 16⟩ w with
    | none => none
    | some n => some (n.toNat, r)

/-- The operands of `OpUnknown` (text.cpp:613-644); `n` operands are left. -/
def unknownLoop (G : AGrammar) (preserve : List Nat) : Nat → Ctx → Inst → Text → R (Ctx × Inst × Text)
  | 0, ctx, inst, s => .ok (ctx, inst, s)
  | n + 1, ctx, inst, s =>
    match advance s with
    | none => .err
    | some s1 =>
      match isStartOfNewInst s1 with
      | none => .fault
      | some true => .err
      | some false =>
        let (w, r) := getWord s1
        if w = ['='] then .err
        else
          match encodeOperand G preserve .OPTIONAL_CIV w ⟨ctx, inst, []⟩ with
          | .ok st => unknownLoop G preserve n st.ctx st.inst r
          | .failed => .failed
          | .err => .err
          | .fault => .fault

/-- `encodeInstructionStartingWithOpUnknown` (text.cpp:542-647), from the text after
    the word `OpUnknown`. -/
def encodeOpUnknown (G : AGrammar) (preserve : List Nat) (ctx : Ctx) (s : Text) :
    R (Ctx × Inst × Text) :=
  match expectChar '(' s with
  | none => .err
  | some s =>
    match expectU16 s with
    | none => .err
    | some (opcode, s) =>
      match expectChar ',' s with
      | none => .err
      | some s =>
        match expectU16 s with
        | none => .err
        | some (wordCount, s) =>
          if wordCount = 0 then .err
          else
            match expectChar ')' s with
            | none => .err
            | some s =>
              unknownLoop G preserve (wordCount - 1) ctx
                ⟨[opcodeMake wordCount opcode], opcode, 0, 0⟩ s

/-- Outcome of the operand loop: finished, or left early because an optional
    operand did not match (text.cpp:822-823), which skips everything after the
    loop. -/
inductive L where
  | done (st : S) (rest : Text)
  | early (st : S) (rest : Text)
  | err
  | failed
  | fault

theorem takeFirst_result_length {p q : Pattern} (h : takeFirst p = some (.RESULT_ID, q)) :
    q.length < p.length := by
  cases p with
  | nil => cases h
  | cons a p =>
    simp only [takeFirst] at h
    rcases Verif.Binary.expandOnce_eq a p with ⟨h1, h2⟩ | ⟨b, bs, h1, h2, h3⟩
    · rw [h1] at h; simp only [Option.some.injEq, Prod.mk.injEq] at h
      obtain ⟨_, rfl⟩ := h; simp
    · rw [h1] at h; simp only [Option.some.injEq, Prod.mk.injEq] at h
      obtain ⟨rfl, rfl⟩ := h
      cases a <;> simp [Verif.Binary.expandOnce] at h1

/-- The pattern is left alone by an id operand. -/
theorem encodeId_expected {preserve : List Nat} {t : OT} {s : Text} {st st' : S}
    (h : encodeId preserve t s st = .ok st') : st'.expected = st.expected := by
  unfold encodeId at h
  split at h
  · split at h
    · cases h
    · split at h
      · cases h
      · dsimp only at h
        generalize (if t = OT.TYPE_ID then _ else _ : Inst) = j at h
        split at h
        · split at h <;> first | (cases h; done) | (cases h; rfl)
        · cases h; rfl
  · cases h

/-- The operand loop of `spvTextEncodeOpcode` (text.cpp:755-829).  `result` is the
    text of the result id, empty if there is none. -/
def operandLoop (G : AGrammar) (preserve : List Nat) (result : Text) (st : S) (s : Text) : L :=
  match ht : takeFirst st.expected with
  | none => .done st s
  | some (t, p) =>
    if hr : t = .RESULT_ID ∧ result ≠ [] then
      match he : encodeId preserve .RESULT_ID result { st with expected := p } with
      | .ok st' => operandLoop G preserve result st' s
      | .failed => .failed
      | .err => .err
      | .fault => .fault
    else
      match ha : advance s with
      | none => if t.isOptional then .done { st with expected := p } [] else .err
      | some s1 =>
        match isStartOfNewInst s1 with
        | none => .fault
        | some true => if t.isOptional then .done { st with expected := p } s1 else .err
        | some false =>
          match hw : getWord s1 with
          | (w, r) =>
            if hne : w = [] then .fault      -- excluded by `isStartOfNewInst`
            else
              match encodeOperand G preserve t w { st with expected := p } with
              | .ok st' => operandLoop G preserve result st' r
              | .failed =>
                if t.isOptional then .early { st with expected := p } s1 else .failed
              | .err => .err
              | .fault => .fault
termination_by (s.length, st.expected.length)
decreasing_by
  · apply Prod.Lex.right
    have h1 := encodeId_expected he
    simp only at h1
    rw [h1]
    rw [hr.1] at ht
    exact takeFirst_result_length ht
  · apply Prod.Lex.left
    have := advance_length ha
    have := getWord_length hw hne
    omega

/-- `recordTypeDefinition` (text_handler.cpp:360-402). -/
def recordTypeDefinition (G : AGrammar) (ctx : Ctx) (i : Inst) : R Ctx :=
  match i.words[1]? with
  | none => .fault
  | some v =>
    if (ctx.types v).isSome then .err
    else
      let put (t : IdType) : R Ctx := .ok { ctx with types := fun x => if x = v then some t else ctx.types x }
      if i.opcode = opTypeInt then
        match i.words with
        | [_, _, w, s] => put ⟨w.toNat, s ≠ 0, .int, 0⟩
        | _ => .err
      else if i.opcode = opTypeFloat then
        match i.words with
        | [_, _, w] => put ⟨w.toNat, false, .float, 0⟩
        | [_, _, w, e] =>
          match G.operandByValue .FPENCODING e with
          | none => .err
          | some _ =>
            if G.fpWidthOk (G.fpEncoding e) w then put ⟨w.toNat, false, .float, G.fpEncoding e⟩ else .err
        | _ => .err
      else put ⟨0, false, .other, 0⟩

/-- `spvTextEncodeOpcode` after the operand loop (text.cpp:831-854).  The error of
    `recordTypeIdForValue` is not looked at by the code. -/
def finish (G : AGrammar) (d : OpDesc) (ctx : Ctx) (i : Inst) : R (Ctx × Inst) :=
  let r : R Ctx :=
    if G.generatesType i.opcode then recordTypeDefinition G ctx i
    else if d.hasType then
      if d.hasResult = false then .fault
      else
        match i.words[2]?, i.words[1]? with
        | some v, some t =>
          .ok (if (ctx.valueTypes v).isSome then ctx
            else { ctx with valueTypes := fun x => if x = v then some t else ctx.valueTypes x })
        | _, _ => .fault
    else .ok ctx
  match r with
  | .ok ctx =>
    if i.words.length > maxWords then .err
    else .ok (ctx, { i with words := i.words.set 0 (opcodeMake i.words.length d.opcode) })
  | .failed => .err
  | .err => .err
  | .fault => .fault

/-- The optional `%id =` and the opcode name (text.cpp:671-708): the result id text,
    the name and the text after it. -/
def readOpcode (s : Text) : R (Text × Text × Text) :=
  match getWord s with
  | (w, r) =>
    if startsWithOp s then .ok ([], w, r)
    else
      match w with
      | [] => .fault
      | c :: _ =>
        if c ≠ '%' then .err
        else
          match advance r with
          | none => .err
          | some r1 =>
            let (eq, r2) := getWord r1
            if eq ≠ ['='] then .err
            else
              match advance r2 with
              | none => .err
              | some r3 =>
                let (name, r4) := getWord r3
                if startsWithOp r3 then .ok (w, name, r4) else .err

/-- `spvTextEncodeOpcode` (text.cpp:656-854).  When the operand loop is left early
    (:823) the instruction is taken as it is, with 0 as its first word. -/
def encodeOpcode (G : AGrammar) (preserve : List Nat) (ctx : Ctx) (s : Text) :
    R (Ctx × Inst × Text) :=
  if s.head? = some '!' then encodeStartingWithImmediate G preserve ctx s
  else
    match readOpcode s with
    | .fault => .fault
    | .failed => .failed
    | .err => .err
    | .ok (result, name, r) =>
      if name = "OpUnknown".toList then
        if result ≠ [] then .err else encodeOpUnknown G preserve ctx r
      else
        match G.opcodeByName (name.drop 2) with
        | none => .err
        | some d =>
          if d.hasResult ∧ result = [] then .err
          else if d.hasResult = false ∧ result ≠ [] then .err
          else
            match operandLoop G preserve result ⟨ctx, ⟨[0], d.opcode, 0, 0⟩, d.operands⟩ r with
            | .done st rest =>
              match finish G d st.ctx st.inst with
              | .ok (ctx, i) => .ok (ctx, i, rest)
              | .failed => .failed
              | .err => .err
              | .fault => .fault
            | .early st rest => .ok (st.ctx, st.inst, rest)
            | .err => .err
            | .failed => .failed
            | .fault => .fault

/-- The loop of `spvTextToBinaryInternal` (text.cpp:936-945), from a position at
    which there is text: the context and the instructions.  The function never
    fails to advance; `fuel` bounds the number of instructions. -/
def assembleLoop (G : AGrammar) (preserve : List Nat) : Nat → Ctx → Text → List Inst →
    R (Ctx × List Inst)
  | 0, _, _, _ => .fault
  | fuel + 1, ctx, s, out =>
    match encodeOpcode G preserve ctx s with
    | .ok (ctx, i, r) =>
      match advance r with
      | none => .ok (ctx, out ++ [i])
      | some r1 => assembleLoop G preserve fuel ctx r1 (out ++ [i])
    | .failed => .failed
    | .err => .err
    | .fault => .fault

/-- The instructions of a text and the context at the end: the common part of
    `GetNumericIds` (text.cpp:876-905) and `spvTextToBinaryInternal`
    (text.cpp:910-972).  The result of the first `advance` is not looked at, so a
    NUL counts as text (`hasText`). -/
def run (G : AGrammar) (preserve : List Nat) (s : Text) : R (Ctx × List Inst) :=
  let s1 := advanceTo s
  if s1 = [] then .ok (.init, []) else assembleLoop G preserve (s1.length + 1) .init s1 []

/-- `spvTextToBinaryInternal` (text.cpp:910-972): the words of the module. -/
def assemble (G : AGrammar) (version : Word) (preserveNumericIds : Bool) (s : Text) : R (List Word) :=
  let preserve : R (List Nat) :=
    if preserveNumericIds then
      match run G [] s with
      | .ok (ctx, _) => .ok (numericIds ctx.ids)
      | .fault => .fault
      | _ => .err
    else .ok []
  match preserve with
  | .ok p =>
    match run G p s with
    | .ok (ctx, is) =>
      .ok ([0x07230203#32, version, 0x00070000#32, BitVec.ofNat 32 ctx.ids.bound, 0] ++
        is.flatMap (·.words))
    | .failed => .failed
    | .err => .err
    | .fault => .fault
  | .failed => .failed
  | .err => .err
  | .fault => .fault

end Verif.Asm
