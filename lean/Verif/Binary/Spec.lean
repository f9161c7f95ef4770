import Verif.Binary.Model

/-!
# Specification vocabulary for the binary parser (C01–C06)
-/
namespace Verif.Binary.Spec
open Verif.StringLit (Byte Word)

/-- The operands are contiguous: the first starts at word `a`, each next one where the
previous one ends, and the last ends at word `b`. -/
def Tiles : Nat → List POperand → Nat → Prop
  | a, [], b => a = b
  | a, o :: os, b => o.offset = a ∧ Tiles (a + o.nwords) os b

/-- The callback called on the instructions one after the other until it returns a code
other than 0, with the code `c` at the end otherwise. -/
def feed {σ : Type} (cb : σ → Inst → σ × Int) : σ → List Inst → Int → σ × Int
  | s, [], c => (s, c)
  | s, x :: xs, c => if (cb s x).2 ≠ 0 then cb s x else feed cb (cb s x).1 xs c

/-- What a caller that records everything and always answers `SPV_SUCCESS` sees: the
header, the instructions, and the result code. `none` = a fault. -/
def observe (G : Grammar) (host : Endian) (maxVersion : Word) (unk : Bool) (ws : List Word) :
    Option ((Option (Endian × Header) × List Inst) × Int) :=
  parse G host maxVersion unk (fun s e h => ((some (e, h), s.2), 0)) (fun s x => ((s.1, s.2 ++ [x]), 0))
    ws (none, [])

/-- The instructions and result code a recording caller sees. -/
def insts (G : Grammar) (host : Endian) (maxVersion : Word) (unk : Bool) (ws : List Word) :
    Option (List Inst × Int) :=
  (observe G host maxVersion unk ws).map fun r => (r.1.2, r.2)

/-- The SPIR-V magic number. -/
def magic : Word := 0x07230203#32

/-- The module in host byte order. -/
def hostOrder (ws : List Word) : List Word :=
  if ws.head? = some magic then ws else ws.map bswap

/-- Opcodes of the instructions of a module, found by following the word counts only;
`n` bounds the number of words left. -/
def walk : Nat → List Word → List Nat
  | 0, _ => []
  | _ + 1, [] => []
  | n + 1, w :: ws => opcodeOf w :: walk n (ws.drop (wordCount w - 1))

/-- Opcodes of a module in host byte order. -/
def opcodes (ws : List Word) : List Nat := walk ws.length (ws.drop 5)

/-- The types a grammar may use anywhere: not one of those the parser handles only inside
particular instructions. -/
def ordinary (t : OT) : Prop :=
  t.kind ≠ .extInstNum ∧ t.kind ≠ .specConstOp ∧ t.kind ≠ .typedLit ∧ t ≠ .VARIABLE_LITERAL_INTEGER_ID

instance (t : OT) : Decidable (ordinary t) := by unfold ordinary; infer_instance

/-- Operand types of the instructions the parser treats specially, as in the SPIR-V
grammar: the listed types first, then any ordinary ones. -/
def special : List (Nat × List OT) :=
  [(12, [.TYPE_ID, .RESULT_ID, .ID, .EXTENSION_INSTRUCTION_NUMBER]),
   (4433, [.TYPE_ID, .RESULT_ID, .ID, .EXTENSION_INSTRUCTION_NUMBER]),
   (52, [.TYPE_ID, .RESULT_ID, .SPEC_CONSTANT_OP_NUMBER]),
   (43, [.TYPE_ID, .RESULT_ID, .TYPED_LITERAL_NUMBER]),
   (50, [.TYPE_ID, .RESULT_ID, .TYPED_LITERAL_NUMBER]),
   (11, [.RESULT_ID, .LITERAL_STRING]),
   (21, [.RESULT_ID, .LITERAL_INTEGER, .LITERAL_INTEGER]),
   (22, [.RESULT_ID, .LITERAL_INTEGER])]

/-- What the parser's assertions and its reads of fixed operand positions take for granted
about the grammar tables. -/
structure GrammarOk (G : Grammar) : Prop where
  /-- The special instructions have the operands of the SPIR-V grammar. -/
  opcode : ∀ op ops, G.opcode op = some ops → ∀ l, (op, l) ∈ special →
    ∃ r, ops.filter (fun t => t != .NONE) = l ++ r ∧ ∀ t ∈ r, ordinary t
  /-- `OpSwitch` may take literal/label pairs. -/
  switch : ∀ ops, G.opcode opSwitch = some ops →
    ∀ t ∈ ops, ordinary t ∨ t = .VARIABLE_LITERAL_INTEGER_ID
  /-- Every other instruction has ordinary operands. -/
  other : ∀ op ops, G.opcode op = some ops → op ≠ opSwitch → (∀ l, (op, l) ∉ special) →
    ∀ t ∈ ops, ordinary t
  /-- So do enumerants and extended instructions. -/
  operand : ∀ t v ops, G.operand t v = some ops → ∀ x ∈ ops, ordinary x
  extInst : ∀ e v ops, G.extInst e v = some ops → ∀ x ∈ ops, ordinary x
  /-- An instruction allowed in `OpSpecConstantOp` has a type and a result id first. -/
  specConstOp : ∀ op ops, G.specConstOp op = true → G.opcode op = some ops →
    2 ≤ ops.length ∧ ∀ x ∈ ops.drop 2, ordinary x

end Verif.Binary.Spec
