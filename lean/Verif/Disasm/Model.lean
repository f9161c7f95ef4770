import Verif.Asm.Strings
import Verif.Binary.Model
/-!
# The disassembler  (source/disassemble.cpp, source/parsed_operand.cpp)

From the parsed module to text, with the trivial name mapper (ids are printed as numbers), without
colours, and without the options that need the control flow graph (nested indentation, reordered
blocks). The names of opcodes and enumerants are tables (generated from SPIRV-Headers, not part of
the repository), and so is the text of a floating point number, which is written by the C++
library. A failed assertion, and a read outside the words of the instruction, is `none`.
-/
namespace Verif.Disasm
open Verif.ParseNumber (Text)
open Verif.Binary (OT Grammar Inst POperand NumKind Endian Header)
open Verif.Asm (quote charOf)

abbrev Word := BitVec 32

/-- The tables the disassembler consults. -/
structure Names where
  /-- `LookupOpcode` by number: the name without "Op". -/
  opcode : Nat → Option Text
  /-- `LookupOperand` by value: the name. -/
  operand : OT → Word → Option Text
  /-- `LookupExtInst` by value: the name. -/
  extInst : Nat → Word → Option Text
  /-- The text of a floating point number, by width, encoding and words: the cases of
  source/parsed_operand.cpp:47-97 and 113-116. -/
  float : Nat → Nat → List Word → Text
  /-- `spvGeneratorStr`, source/opcode.cpp:51-57. -/
  generator : Nat → Text
  /-- `spvOpcodeIsDecoration`, source/opcode.cpp:287-302. -/
  isDecoration : Nat → Bool
  /-- `spvOpcodeIsDebug`, source/opcode.cpp:563-578. -/
  isDebug : Nat → Bool

/-- The options of `spvBinaryToText` which are modelled. -/
structure Options where
  header : Bool
  indent : Bool
  comment : Bool
  byteOffset : Bool
  unk : Bool

/-- `std::ostream << n` for an unsigned number; `to_string`, the trivial name mapper
(source/name_mapper.cpp:36-38). -/
def dec (n : Nat) : Text := Nat.toDigits 10 n

/-- `std::ostream << n` for a signed number. -/
def decInt (n : Int) : Text := if n < 0 then '-' :: dec n.natAbs else dec n.natAbs

def spaces (n : Nat) : Text := List.replicate n ' '

/-! ## Operands -/

/-- `EmitNumericLiteral`, source/parsed_operand.cpp:24-120. -/
def emitNumeric (N : Names) (x : Inst) (o : POperand) : Option Text :=
  if o.type ≠ .LITERAL_INTEGER ∧ o.type ≠ .LITERAL_FLOAT ∧ o.type ≠ .TYPED_LITERAL_NUMBER ∧
      o.type ≠ .OPTIONAL_LITERAL_INTEGER ∧ o.type ≠ .OPTIONAL_TYPED_LITERAL_INTEGER then some []
  else if o.nwords < 1 then some []
  else if o.nwords > 2 then some []
  else
    match x.words[o.offset]? with
    | none => none
    | some w =>
      if o.nwords = 1 then
        match o.nkind with
        | .signed => some (decInt w.toInt)
        | .unsigned => some (dec w.toNat)
        | .floating => some (N.float o.width.toNat o.enc [w])
        | .none => some []
      else
        match x.words[o.offset + 1]? with
        | none => none
        | some w1 =>
          let bits : BitVec 64 := w1 ++ w
          match o.nkind with
          | .signed => some (decInt bits.toInt)
          | .unsigned => some (dec bits.toNat)
          | .floating => some (N.float o.width.toNat o.enc [w, w1])
          | .none => some []

/-- The loop of `EmitMaskOperand`, source/disassemble.cpp:1034-1045, from bit `k` on, `n` bits
left. -/
def maskNames (N : Names) (t : OT) : (n k : Nat) → Word → (emitted : Bool) → Option Text
  | 0, _, rem, _ => if rem = 0 then some [] else none
  | n + 1, k, rem, emitted =>
    if rem = 0 then some []
    else
      let mask : Word := 1#32 <<< k
      if (rem &&& mask) ≠ 0 then
        match N.operand t mask with
        | none => none
        | some name =>
          (maskNames N t n (k + 1) (rem ^^^ mask) true).map fun r =>
            (if emitted then '|' :: name else name) ++ r
      else maskNames N t n (k + 1) rem emitted

/-- `EmitMaskOperand`, source/disassemble.cpp:1026-1053. -/
def emitMask (N : Names) (t : OT) (w : Word) : Option Text :=
  if w = 0 then some ((N.operand t 0).getD [])
  else maskNames N t 32 0 w false

/-- The string of an operand: `spvDecodeLiteralStringOperand`, source/binary.cpp:67-74, and the
escapes of source/disassemble.cpp:948-960. -/
def emitString (x : Inst) (o : POperand) : Option Text :=
  match StringLit.makeString ((x.words.drop o.offset).take o.nwords) with
  | .unterminated _ => none
  | .found s => some (quote (s.map charOf))

/-- `EmitOperand`, source/disassemble.cpp:896-1024. The lists of enumerant and mask types
(961-1007) contain only types for which the `default` label does the same, and
`OPTIONAL_CAPABILITY`. -/
def emitOperand (G : Grammar) (N : Names) (x : Inst) (o : POperand) : Option Text :=
  match x.words[o.offset]? with
  | none => none
  | some w =>
    match o.type with
    | .RESULT_ID => none
    | .ID | .TYPE_ID | .SCOPE_ID | .MEMORY_SEMANTICS_ID => some ('%' :: dec w.toNat)
    | .EXTENSION_INSTRUCTION_NUMBER =>
      match N.extInst x.extType w with
      | some n => some n
      | none => if G.nonSemantic x.extType then some (dec w.toNat) else none
    | .SPEC_CONSTANT_OP_NUMBER => N.opcode w.toNat
    | .LITERAL_INTEGER | .TYPED_LITERAL_NUMBER | .LITERAL_FLOAT => emitNumeric N x o
    | .LITERAL_STRING => emitString x o
    | t =>
      if t.isConcreteMask then emitMask N t w
      else if t.isConcrete || decide (t = .OPTIONAL_CAPABILITY) then N.operand t w
      else none

/-- The operands of an instruction, each after a blank, without the result id;
source/disassemble.cpp:768-774. -/
def emitOperands (G : Grammar) (N : Names) (x : Inst) : List POperand → Option Text
  | [] => some []
  | o :: os =>
    if o.type = .RESULT_ID then emitOperands G N x os
    else
      match emitOperand G N x o, emitOperands G N x os with
      | some a, some b => some (' ' :: (a ++ b))
      | _, _ => none

/-! ## Instructions -/

/-- The state of the disassembler: the text so far, the section comments written,
`byte_offset_`, `last_instruction_comment_alignment_` and `id_comments_`. -/
structure St where
  out : Text
  decoration : Bool
  debug : Bool
  types : Bool
  offset : Nat
  align : Nat
  idComments : Word → Option Text

def St.init : St := ⟨[], false, false, false, 0, 0, fun _ => none⟩

def opName : Nat := 5
def opFunction : Nat := 54
def opDecorate : Nat := 71

/-- `indent_`, source/disassemble.cpp:632-634. -/
def Options.width (opt : Options) : Nat := if opt.indent then 15 else 0

/-- The start of the line, source/disassemble.cpp:740-750. `setw` pads the "%" on the left. -/
def linePrefix (opt : Options) (r : Word) : Text :=
  if r ≠ 0 then
    (if opt.indent then spaces (opt.width - 3 - (dec r.toNat).length - 1) else []) ++
      '%' :: (dec r.toNat ++ [' ', '=', ' '])
  else spaces opt.width

/-- The line of an instruction, source/disassemble.cpp:740-774. -/
def emitLine (G : Grammar) (N : Names) (opt : Options) (x : Inst) : Option Text :=
  match N.opcode x.opcode, emitOperands G N x (x.operands.take x.numOperands) with
  | some name, some ops => some (linePrefix opt x.resultId ++ 'O' :: 'p' :: (name ++ ops))
  | _, _ => none

/-- The operands of a decoration as they appear in comments, source/disassemble.cpp:836-844;
`first` = no separator yet. -/
def decorationText (G : Grammar) (N : Names) (x : Inst) : List POperand → (first : Bool) → Option Text
  | [], _ => some []
  | o :: os, first =>
    match emitOperand G N x o, decorationText G N x os false with
    | some a, some b => some ((if first then [] else [' ']) ++ a ++ b)
    | _, _ => none

/-- `GenerateCommentForDecoratedId`, source/disassemble.cpp:825-860. -/
def noteDecoration (G : Grammar) (N : Names) (x : Inst) (c : Word → Option Text) :
    Option (Word → Option Text) :=
  if x.opcode = opDecorate then
    match x.operands.take x.numOperands with
    | [] => none
    | o :: os =>
      match x.words[o.offset]?, decorationText G N x os true with
      | some id, some t =>
        if id = 0 then some c
        else
          let old := (c id).getD []
          some fun y => if y = id then some ((if old = [] then [] else old ++ [',', ' ']) ++ t) else c y
      | _, _ => none
  else some c

/-- A separator between two non-empty comments. -/
def joinComment (a b : Text) : Text := if a = [] then b else a ++ ',' :: ' ' :: b

/-- `0x` and the hexadecimal digits, at least eight; source/disassemble.cpp:787-788. -/
def hexOffset (n : Nat) : Text :=
  let d := Nat.toDigits 16 n
  '0' :: 'x' :: (List.replicate (8 - d.length) '0' ++ d)

/-- The comments after an instruction, source/disassemble.cpp:780-806; `c` is `id_comments_`
after `GenerateCommentForDecoratedId`. The separator is printed before the second comment even
if the first is empty, which is not possible. -/
def comments (opt : Options) (x : Inst) (offset : Nat) (c : Word → Option Text) : Option Text :=
  let a := if opt.byteOffset then hexOffset offset else []
  let b : Option Text :=
    if opt.comment ∧ x.opcode = opName then
      match (x.operands.take x.numOperands).head? with
      | none => none
      | some o =>
        match x.words[o.offset]? with
        | none => none
        | some w => some (joinComment a ('i' :: 'd' :: ' ' :: '%' :: dec w.toNat))
    else some a
  b.map fun b =>
    if opt.comment ∧ x.resultId ≠ 0 then
      match c x.resultId with
      | none => b
      | some t => joinComment b t
    else b

/-- `GetLineLengthWithoutColor`, source/disassemble.cpp:603-620: everything from an escape
character to the next `m` is not counted; `skip` = inside such a range. -/
def visibleLength : (skip : Bool) → Text → Nat
  | _, [] => 0
  | true, c :: s => visibleLength (c ≠ 'm') s
  | false, c :: s => if c = '\x1b' then visibleLength true s else visibleLength false s + 1

/-- The end of the line and the new alignment, source/disassemble.cpp:808-823. The numbers are
`uint32_t` in the code, without wrapping here. -/
def lineEnd (line c : Text) (align : Nat) : Text × Nat :=
  if c ≠ [] then
    let len := visibleLength false line
    let a := max (max (len + 2) align) 50
    let a := (a + 3) / 4 * 4
    (spaces (a - len) ++ ';' :: ' ' :: (c ++ ['\n']), min a 256)
  else (['\n'], 0)

/-- The instructions printed as `OpUnknown`, source/disassemble.cpp:697-721. -/
def needsRaw (G : Grammar) (x : Inst) : Bool :=
  match G.opcode x.opcode with
  | none => true
  | some ops =>
    (decide (x.opcode = Binary.opExtInst) && decide (x.extType ≠ 0) && !G.nonSemantic x.extType &&
      (match x.words[4]? with
        | none => false
        | some w => (G.extInst x.extType w).isNone)) ||
    (decide (ops ≠ []) && decide (x.numOperands = 0))

/-- The line of such an instruction, source/disassemble.cpp:723-736. -/
def emitRaw (opt : Options) (x : Inst) : Text :=
  spaces opt.width ++ "OpUnknown(".toList ++ dec x.opcode ++ ", ".toList ++ dec x.words.length ++
    ")".toList ++ (x.words.drop 1).flatMap (fun w => ' ' :: dec w.toNat) ++
    "  ; note: ID bound may be incorrect after reassembly\n".toList

/-- `EmitInstructionImpl`, source/disassemble.cpp:686-823. -/
def emitInstruction (G : Grammar) (N : Names) (opt : Options) (x : Inst) (s : St) : Option St :=
  if opt.unk && needsRaw G x then some { s with out := s.out ++ emitRaw opt x, align := 0 }
  else
    match emitLine G N opt x,
      (if opt.comment then noteDecoration G N x s.idComments else some s.idComments) with
    | some line, some c =>
      match comments opt x s.offset c with
      | none => none
      | some cs =>
        let (e, a) := lineEnd line cs s.align
        some { s with out := s.out ++ line ++ e, align := a, idComments := c }
    | _, _ => none

/-- One comment line of `EmitSectionComment`, after an empty line. -/
def section_ (opt : Options) (t : Text) : Text :=
  '\n' :: (spaces opt.width ++ ';' :: ' ' :: (t ++ ['\n']))

/-- `EmitSectionComment`, source/disassemble.cpp:862-894. -/
def emitSection (G : Grammar) (N : Names) (opt : Options) (x : Inst) (s : St) : St :=
  let s := if opt.comment ∧ x.opcode = opFunction then
    { s with out := s.out ++ section_ opt ("Function ".toList ++ dec x.resultId.toNat) } else s
  let s := if opt.comment ∧ s.decoration = false ∧ N.isDecoration x.opcode = true then
    { s with out := s.out ++ section_ opt "Annotations".toList, decoration := true } else s
  let s := if opt.comment ∧ s.debug = false ∧ N.isDebug x.opcode = true then
    { s with out := s.out ++ section_ opt "Debug Information".toList, debug := true } else s
  if opt.comment ∧ s.types = false ∧ G.generatesType x.opcode = true then
    { s with out := s.out ++ section_ opt "Types, variables and constants".toList, types := true } else s

/-- `HandleInstruction`, source/disassemble.cpp:183-229. -/
def handleInstruction (G : Grammar) (N : Names) (opt : Options) (x : Inst) (s : St) : Option St :=
  (emitInstruction G N opt x (emitSection G N opt x s)).map fun s =>
    { s with offset := s.offset + x.words.length * 4 }

/-! ## Modules -/

/-- The header, source/disassemble.cpp:165-181, 648-680. -/
def headerText (N : Names) (h : Header) : Text :=
  let tool := (h.generator >>> 16).toNat
  "; SPIR-V\n".toList ++
  "; Version: ".toList ++ dec ((h.version >>> 16) &&& 0xff#32).toNat ++ ".".toList ++
    dec ((h.version >>> 8) &&& 0xff#32).toNat ++ "\n".toList ++
  "; Generator: ".toList ++ N.generator tool ++
    (if N.generator tool = "Unknown".toList then "(".toList ++ dec tool ++ ")".toList else []) ++
    "; ".toList ++ dec (h.generator &&& 0xffff#32).toNat ++ "\n".toList ++
  "; Bound: ".toList ++ dec h.bound.toNat ++ "\n".toList ++
  "; Schema: ".toList ++ dec h.schema.toNat ++ "\n".toList

/-- `HandleHeader`, source/disassemble.cpp:165-181. -/
def handleHeader (N : Names) (opt : Options) (h : Header) (s : St) : St :=
  { s with out := s.out ++ (if opt.header then headerText N h else []), offset := 20 }

/-- `spvBinaryToText`, source/disassemble.cpp:1119-1148: the text, or the result code of the
parser. -/
def binaryToText (G : Grammar) (N : Names) (host : Endian) (maxVersion : Word) (opt : Options)
    (ws : List Word) : Option (Except Int Text) :=
  match Binary.parse (σ := Option St) G host maxVersion opt.unk
      (fun s _ h => (s.map (handleHeader N opt h), 0))
      (fun s x => (s.bind (handleInstruction G N opt x), 0)) ws (some .init) with
  | none => none
  | some (none, _) => none
  | some (some s, c) => some (if c = 0 then .ok s.out else .error c)

end Verif.Disasm
