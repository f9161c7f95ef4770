import Verif.CodeSink.Model
import Verif.IfConv.Spec

/-!
# Specification: valid functions, steady instructions (C71)

Executions are those of `Verif.IfConv.Spec`, which know nothing of the pass.
-/

namespace Verif.CodeSink.Spec
open Verif.IfConv Verif.IfConv.Spec

variable {V M : Type}

/-- `x` has a value on arrival in block `b`, which does not come from `b` itself. -/
def Outside (S : Sem V M) (fn : Fn) (x : Id) (b : Lab) : Prop :=
  (S.start x ≠ none ∧ ∀ b', x ∉ defs (fn.block b')) ∨ ∃ b', b' ≠ b ∧ x ∈ defs (fn.block b') ∧ Dominates fn b' b

/-- The rules of SSA form and structured control flow that matter here, besides those of
`IfConv.Spec.Valid`. -/
structure Valid (S : Sem V M) (fn : Fn) : Prop extends IfConv.Spec.Valid S fn where
  /-- labels that are not of the function have nothing in them -/
  listed : ∀ b, b ∉ fn.labels → (fn.block b).phis = [] ∧ (fn.block b).body = [] ∧
    termReads (fn.block b).term = []
  /-- successors are blocks of the function -/
  targets : ∀ b, ∀ s ∈ fn.succs b, s ∈ fn.labels
  /-- each id is defined once -/
  once : ∀ d b b', d ∈ defs (fn.block b) → d ∈ defs (fn.block b') → b = b'
  nodup : ∀ b, (defs (fn.block b)).Nodup
  /-- definitions dominate uses -/
  ready : ∀ b pre i post, (fn.block b).body = pre ++ i :: post → ∀ x ∈ reads i,
    x ∈ (fn.block b).phis.map Phi.id ∨ x ∈ pre.map instId ∨ Outside S fn x b
  term : ∀ b, ∀ x ∈ termReads (fn.block b).term, Avail S fn x b
  /-- the header of a selection strictly dominates its merge block -/
  header : ∀ b m df, (fn.block b).merge = some (.selection m df) →
    Dominates fn b m ∧ m ≠ b ∧ m ∈ fn.labels

/-- The instruction always has one outcome, which depends only on its operands, and changes nothing. -/
def Steady (S : Sem V M) (d : Id) : Prop :=
  ∃ F : List V → V, ∀ xs m x m', S.act d xs m x m' ↔ x = F xs ∧ m' = m

/-- Runs of one function are runs of the other: the same blocks, the same memory, the same values of all
ids for which `moved` does not hold and of all ids the terminator reads. -/
def RunsIn (S : Sem V M) (moved : Id → Prop) (fn fn' : Fn) : Prop :=
  ∀ l c, Reach S fn l c → ∃ c', Reach S fn' l c' ∧ c'.block = c.block ∧ c'.mem = c.mem ∧
    (∀ x, ¬ moved x → c'.env x = c.env x) ∧
    (∀ x ∈ termReads (fn.block c.block).term, c'.env x = c.env x)

end Verif.CodeSink.Spec
