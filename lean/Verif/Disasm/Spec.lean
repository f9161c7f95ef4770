import Verif.Disasm.Model
import Verif.Binary.Spec
import Verif.ParseNumber.Spec
/-!
# When text stands for a module  (C13)

The tables of the parser, of the assembler and of the disassembler come from one grammar file;
`Agree` says what they have in common. `Faithful` lists the instructions which text can express.
-/
namespace Verif.Disasm.Spec
open Verif.ParseNumber (Text)
open Verif.Binary (OT Grammar Inst POperand Endian isExtended)
open Verif.Asm (AGrammar OpDesc charOf isValidId startsWithOp)

/-- A name as it appears in the grammar: letters, digits and underscores, not like an opcode. -/
def NameOk (s : Text) : Prop := isValidId s = true ∧ startsWithOp s = false

/-- The name of an opcode, without "Op": it starts with a capital letter. -/
def OpNameOk (s : Text) : Prop :=
  isValidId s = true ∧ startsWithOp ('O' :: 'p' :: s) = true ∧ s ≠ "Unknown".toList

/-- Text that may be part of a comment. -/
def Line (s : Text) : Prop := '\n' ∉ s ∧ '\x00' ∉ s

/-- Mask types for which the assembler accepts a single name only: they are not among the labels
of source/text.cpp:414-433. -/
def SingleName (t : OT) : Prop :=
  t = .MEMORY_ACCESS ∨ t = .COOPERATIVE_MATRIX_OPERANDS ∨ t = .MATRIX_MULTIPLY_ACCUMULATE_OPERANDS

/-- Operand types an enumerant, an extended instruction or the rest of an instruction may have. -/
def Inner (t : OT) : Prop := t ≠ .TYPE_ID ∧ t ≠ .RESULT_ID ∧ t ≠ .NONE

/-- The operands of an instruction in the grammar. -/
structure Shape (G : Grammar) (d : OpDesc) (rest : List OT) : Prop where
  operands : d.operands = (if d.hasType then [.TYPE_ID] else []) ++
    (if d.hasResult then [.RESULT_ID] else []) ++ rest
  inner : ∀ t ∈ rest, Inner t
  typed : d.hasType = true → d.hasResult = true
  generates : G.generatesType d.opcode = true → d.hasResult = true ∧ d.hasType = false
  typeInt : d.opcode = Binary.opTypeInt → G.generatesType d.opcode = true ∧
    rest = [.LITERAL_INTEGER, .LITERAL_INTEGER]
  typeFloat : d.opcode = Binary.opTypeFloat → G.generatesType d.opcode = true ∧
    rest = [.LITERAL_INTEGER, .OPTIONAL_FPENCODING]
  extImport : d.opcode = Binary.opExtInstImport → d.hasResult = true ∧ d.hasType = false ∧
    G.generatesType d.opcode = false ∧ rest = [.LITERAL_STRING]
  switch : d.opcode = Binary.opSwitch → d.hasResult = false ∧ ∃ r, rest = .ID :: r
  extended : isExtended d.opcode = true → d.hasType = true ∧ d.hasResult = true ∧
    ∃ r, rest = .ID :: .EXTENSION_INSTRUCTION_NUMBER :: r
  target : d.opcode = opName ∨ d.opcode = opDecorate → d.hasResult = false ∧ ∃ r, rest = .ID :: r

/-- The tables of the parser (`G`), of the assembler (`A`) and of the disassembler (`N`) come from
one grammar. -/
structure Agree (G : Grammar) (A : AGrammar) (N : Names) : Prop where
  /-- Opcodes the environment of the assembler has. -/
  opcode : ∀ op d, A.opcodeByNumber op = some d → d.opcode = op ∧ G.opcode op = some d.operands ∧
    (∃ rest, Shape G d rest) ∧
    ∃ name, N.opcode op = some name ∧ OpNameOk name ∧ A.opcodeByName name = some d
  /-- Opcodes allowed in `OpSpecConstantOp`. -/
  specConstOp : ∀ op name, G.specConstOp op = true → N.opcode op = some name →
    NameOk name ∧ A.specOpByName name = some op ∧
    ∀ d, A.opcodeByNumber op = some d → d.hasType = true ∧ d.hasResult = true ∧
      ∀ t ∈ d.operands, ¬ SingleName t
  /-- Enumerants. -/
  operand : ∀ t v ops, G.operand t v = some ops → (∀ x ∈ ops, Inner x ∧ ¬ SingleName x) ∧
    A.operandByValue t v = some ops ∧
    ∃ name, N.operand t.recorded v = some name ∧ NameOk name ∧ A.operandByName t name = some (v, ops)
  /-- A zero mask with a name is an enumerant, and has no operands. -/
  zero : ∀ t name, t.isMask = true → N.operand t.recorded 0 = some name → G.operand t 0 = some []
  /-- The encodings of `OpTypeFloat` have no operands. -/
  encoding : ∀ v ops, G.operand .OPTIONAL_FPENCODING v = some ops →
    ops = [] ∧ (G.operand .FPENCODING v).isSome
  /-- Extended instructions. -/
  extInst : ∀ e v ops, G.extInst e v = some ops → (∀ x ∈ ops, Inner x ∧ ¬ SingleName x) ∧
    ∃ name, N.extInst e v = some name ∧ NameOk name ∧ A.extInstByName e name = some (v, ops)
  /-- A number is not the name of an extended instruction. -/
  extInstNumber : ∀ e v, G.extInst e v = none → N.extInst e v = none ∧
    A.extInstByName e (dec v.toNat) = none
  extImport : ∀ s, A.extImport (s.map charOf) = G.extImport s
  nonSemantic : ∀ e, A.nonSemantic e = G.nonSemantic e
  generatesType : ∀ op, A.generatesType op = G.generatesType op
  fpEncoding : ∀ v, A.fpEncoding v = G.fpEncoding v
  /-- Names are single lines. -/
  opcodeLine : ∀ op n, N.opcode op = some n → Line n
  operandLine : ∀ t v n, N.operand t v = some n → Line n
  extInstLine : ∀ e v n, N.extInst e v = some n → Line n
  generatorLine : ∀ g, Line (N.generator g)

/-- The words of an operand. -/
def operandWords (x : Inst) (o : POperand) : List Word := (x.words.drop o.offset).take o.nwords

/-- The words are those the assembler writes for an integer of the type: sign- or zero-extended,
low word first. -/
def Canonical (width : Nat) (signed : Bool) (ws : List Word) : Prop :=
  1 ≤ width ∧ width ≤ 64 ∧
    ∃ v, ParseNumber.Spec.Representable width signed v ∧ ws = ParseNumber.Spec.words width v

/-- The text of a floating point number is one plain word from which the assembler gets the same
words (the text round trip of floating point numbers is C11). -/
def FloatOk (A : AGrammar) (N : Names) (width enc : Nat) (ws : List Word) : Prop :=
  A.encodeFloat (N.float width enc ws) width enc = (.success, ws) ∧
  N.float width enc ws ≠ [] ∧
  (∀ c ∈ N.float width enc ws, c ∈ "0123456789abcdefABCDEFxXpPinIN.+-_".toList)

/-- What text can express: an operand that is not one of the exceptions. -/
structure OperandOk (A : AGrammar) (N : Names) (x : Inst) (o : POperand) : Prop where
  /-- A number of a type of width 0 has no words. -/
  nonempty : 1 ≤ o.nwords
  /-- The bytes after the end of a string are zero. -/
  string : o.type = .LITERAL_STRING →
    operandWords x o = StringLit.makeVector (StringLit.makeString (operandWords x o)).str
  /-- Integers are extended from their width, and the width is at most 64. -/
  integer : o.nkind = .unsigned ∨ o.nkind = .signed →
    Canonical o.width.toNat (o.nkind = .signed) (operandWords x o)
  /-- Floating point numbers have at most 64 bits, and their text has their value. -/
  float : o.nkind = .floating → o.nwords ≤ 2 ∧ FloatOk A N o.width.toNat o.enc (operandWords x o)
  /-- A zero mask has a name. -/
  mask : o.type.isConcreteMask = true → x.words[o.offset]? = some 0 → (N.operand o.type 0).isSome
  /-- Masks for which the assembler takes a single name have at most one bit. -/
  single : SingleName o.type → (∀ d, A.opcodeByNumber x.opcode = some d → o.type ∈ d.operands) →
    ∀ w, x.words[o.offset]? = some w → w = 0 ∨ ∃ k, k < 32 ∧ w = 1#32 <<< k
  /-- The opcode of `OpSpecConstantOp` exists in the environment. -/
  specOp : o.type = .SPEC_CONSTANT_OP_NUMBER → ∀ w, x.words[o.offset]? = some w →
    (A.opcodeByNumber w.toNat).isSome

/-- What text can express: an instruction that is not one of the exceptions. -/
structure Faithful (A : AGrammar) (N : Names) (opt : Options) (x : Inst) : Prop where
  /-- The opcode exists in the environment of the assembler. -/
  supported : (A.opcodeByNumber x.opcode).isSome
  operands : ∀ o ∈ x.operands, OperandOk A N x o
  /-- The encoding of a floating point type fits its width. -/
  encoding : x.opcode = Binary.opTypeFloat → ∀ a b w e, x.words = [a, b, w, e] →
    A.fpWidthOk (A.fpEncoding e) w = true
  /-- Strings of decorations are copied into comments, and have to be single lines there. -/
  comment : opt.comment = true → x.opcode = opDecorate → ∀ o ∈ x.operands, o.type = .LITERAL_STRING →
    0x0a#8 ∉ (StringLit.makeString (operandWords x o)).str

end Verif.Disasm.Spec
