import Verif.BlockMerge.Model
import Verif.CodeSink.Spec

/-!
# Specification: runs with fewer blocks (C73)

Executions are those of `Verif.IfConv.Spec`; valid functions those of `Verif.CodeSink.Spec`. None of these know
the pass.
-/

namespace Verif.BlockMerge.Spec
open Verif.IfConv Verif.IfConv.Spec

variable {V M : Type}

/-- Valid functions; the first block is listed. -/
structure Valid (S : Sem V M) (fn : Fn) : Prop extends toBase : CodeSink.Spec.Valid S fn where
  first : fn.entry ∈ fn.labels

/-- Two configurations of two functions with the same memory, that go to the same blocks, and have the same values
of all ids but the phis of blocks that are gone. -/
structure Same (S : Sem V M) (fn fn' : Fn) (c c' : Config V M) : Prop where
  mem : c'.mem = c.mem
  goes : ∀ b, Goes S c'.env c'.mem (fn'.block c'.block).term b ↔ Goes S c.env c.mem (fn.block c.block).term b
  env : ∀ x, (∀ s, s ∉ fn'.labels → x ∉ (fn.block s).phis.map Phi.id) → c'.env x = c.env x
  /-- the values a terminator reads: what is returned, for example -/
  reads : (CodeSink.termReads (fn'.block c'.block).term).map c'.env =
    (CodeSink.termReads (fn.block c.block).term).map c.env

/-- Runs of `fn`, when they are not just about to enter a block that is gone, are runs of `fn'`, without the
blocks that are gone. -/
def RunsForth (S : Sem V M) (fn fn' : Fn) : Prop :=
  ∀ l c, Reach S fn l c → (∀ s, (fn.block c.block).term = .br s → s ∈ fn'.labels) →
    ∃ c', Reach S fn' (l.filter (· ∈ fn'.labels)) c' ∧ Same S fn fn' c c'

/-- Runs of `fn'` are runs of `fn`, with some more blocks. -/
def RunsBack (S : Sem V M) (fn fn' : Fn) : Prop :=
  ∀ l' c', Reach S fn' l' c' → ∃ l c, Reach S fn l c ∧ l' = l.filter (· ∈ fn'.labels) ∧ Same S fn fn' c c'

/-- A run may end with the memory `m`, and then reads `vs` in its last terminator: what is returned. -/
def EndsWith (S : Sem V M) (fn : Fn) (m : M) (vs : List (Option V)) : Prop :=
  ∃ l c, Reach S fn l c ∧ (∀ b, ¬ Goes S c.env c.mem (fn.block c.block).term b) ∧ c.mem = m ∧
    (CodeSink.termReads (fn.block c.block).term).map c.env = vs

/-- Structure: a block is the merge block of one header, and loop headers branch. -/
structure Structured (fn : Fn) : Prop where
  merge_once : ∀ h h' M M', h ∈ fn.labels → h' ∈ fn.labels → (fn.block h).merge = some M →
    (fn.block h').merge = some M' → mergeTarget M = mergeTarget M' → h = h'
  loop_term : ∀ h m c, h ∈ fn.labels → (fn.block h).merge = some (.loop m c) →
    ∀ g ops ts, (fn.block h).term ≠ .multi g ops ts

/-- A merge block. -/
def MergeBlock (fn : Fn) (x : Lab) : Prop :=
  ∃ h M, h ∈ fn.labels ∧ (fn.block h).merge = some M ∧ mergeTarget M = x

/-- A continue target. -/
def ContinueTarget (fn : Fn) (x : Lab) : Prop := ∃ h m, h ∈ fn.labels ∧ (fn.block h).merge = some (.loop m x)

/-- A target of the switch around it, and not the end of that switch. -/
def CaseOf (fn : Fn) (switch : Lab → Option Lab) (x : Lab) : Prop :=
  ∃ h, switch x = some h ∧ x ∈ fn.succs h ∧ ∀ M, (fn.block h).merge = some M → mergeTarget M ≠ x

end Verif.BlockMerge.Spec
