import Verif.Loader.Model
import Verif.Binary.Props

/-! # Splitting the words of an instruction into operands and joining them -/
namespace Verif.Loader
open Verif.StringLit (Word)

/-- The constructor of `Instruction` from a parsed instruction, source/opt/instruction.cpp:66-88
(and :90-107): the words of each of the `num_operands` operands. -/
def irOperands (x : Binary.Inst) : List (List Word) :=
  (x.operands.take x.numOperands).map fun o => (x.words.drop o.offset).take o.nwords

/-- `ToBinaryWithoutAttachedDebugInsts`, source/opt/instruction.cpp:205-219. -/
def toBinary (opcode : Nat) (ops : List (List Word)) : List Word :=
  let n := 1 + ops.flatten.length
  if n > 65535 then [BitVec.ofNat 32 (opcode % 65536)]
  else ((BitVec.ofNat 32 n <<< 16) ||| BitVec.ofNat 32 (opcode % 65536)) :: ops.flatten

theorem tiles_flatten (ws : List Word) : ∀ (os : List Binary.POperand) (a : Nat), Binary.Spec.Tiles a os ws.length →
    (os.map fun o => (ws.drop o.offset).take o.nwords).flatten = ws.drop a ∧ a ≤ ws.length
  | [], a, h => by
    simp only [Binary.Spec.Tiles] at h
    subst h; simp
  | o :: os, a, h => by
    obtain ⟨h1, h2⟩ := h
    obtain ⟨h3, h4⟩ := tiles_flatten ws os _ h2
    refine ⟨?_, by omega⟩
    rw [List.map_cons, List.flatten_cons, h3, h1, ← List.drop_drop, List.take_append_drop]

theorem first_word {w : Word} {n op : Nat} (h1 : w.toNat / 65536 = n) (h2 : w.toNat % 65536 = op) :
    (BitVec.ofNat 32 n <<< 16) ||| BitVec.ofNat 32 (op % 65536) = w := by
  apply BitVec.eq_of_toNat_eq
  have hw := w.isLt
  have hop : op < 65536 := by omega
  have hn : n < 65536 := by omega
  rw [BitVec.toNat_or, BitVec.toNat_shiftLeft, BitVec.toNat_ofNat, BitVec.toNat_ofNat,
    Nat.mod_eq_of_lt hop, Nat.mod_eq_of_lt (show n < 2 ^ 32 by omega), Nat.mod_eq_of_lt (show op < 2 ^ 32 by omega),
    Nat.shiftLeft_eq, Nat.mod_eq_of_lt (show n * 2 ^ 16 < 2 ^ 32 by omega)]
  have := Nat.two_pow_add_eq_or_of_lt (i := 16) (b := op) (by omega) n
  rw [Nat.mul_comm] at this
  rw [← this]
  omega

end Verif.Loader
