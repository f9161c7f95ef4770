import Verif.Link.Model
/-!
# What the linker theorems talk about
-/
namespace Verif.Link.Spec
open Verif.StringLit (Word Byte)
open Verif.Binary (OT)
open Verif.Ir

/-- The ids in an instruction, in order; without its line instructions. -/
def idsOf (i : Inst) : List Word :=
  (i.core.operands.filter (·.type.isId)).flatMap (fun o => o.words.take 1)

/-- The ids in a module, in order; without the line instructions. -/
def ids (m : Module) : List Word := m.visit.flatMap idsOf

/-- The result ids of a module. -/
def results (m : Module) : List Word :=
  m.visit.flatMap (fun i => (i.core.operands.filter (·.type == .RESULT_ID)).flatMap (fun o => o.words.take 1))

/-- An operand with its id blotted out. -/
def blankOperand (o : Operand) : Operand := if o.type.isId then ⟨o.type, 0 :: o.words.drop 1⟩ else o

/-- A module with all its ids blotted out. -/
def blank (m : Module) : Module :=
  m.map (fun i => { i with core := { i.core with operands := i.core.operands.map blankOperand } })

/-- Id operands have a word. -/
def Ok (m : Module) : Prop := ∀ i ∈ m.visit, ∀ o ∈ i.core.operands, o.type.isId → o.words ≠ []

/-- Ids are what the header promises. -/
def InBound (m : Module) : Prop := 1 ≤ m.bound.toNat ∧ ∀ x ∈ ids m, 1 ≤ x.toNat ∧ x.toNat < m.bound.toNat

/-- The number of ids before the `k`-th module. -/
def offset (mods : List Module) (k : Nat) : Nat := ((mods.take k).map (fun m => m.bound.toNat - 1)).sum

/-- The definition a name stands for: the first `Export` of that name, or, if there is none,
    the first `LinkOnceODR`. -/
def definition (l : List (Word × Info)) (name : List Byte) : Option Info :=
  match l.find? (fun e => e.1 = linkExport ∧ e.2.name = name) with
  | some e => some e.2
  | none => (l.find? (fun e => e.1 = linkOnce ∧ e.2.name = name)).map (·.2)

/-- The imports, in order. -/
def imports (l : List (Word × Info)) : List Info := (l.filter (·.1 = linkImport)).map (·.2)

/-- The exports of a name, in order. -/
def exportsOf (l : List (Word × Info)) (name : List Byte) : List Info :=
  (l.filter (fun e => e.1 = linkExport ∧ e.2.name = name)).map (·.2)

/-- The names can be resolved: none is defined by `Export` and by `LinkOnceODR`; none is
    exported twice (unless allowed); and each import is defined (unless partial linkage is
    allowed). -/
def Resolvable (allowPartial allowMultiple : Bool) (l : List (Word × Info)) : Prop :=
  (∀ e ∈ l, ∀ e' ∈ l, e.1 = linkExport → e'.1 = linkOnce → e.2.name ≠ e'.2.name) ∧
  (allowMultiple = false → ∀ name, (exportsOf l name).length ≤ 1) ∧
  (allowPartial = false → ∀ i ∈ imports l, (definition l i.name).isSome)

end Verif.Link.Spec
