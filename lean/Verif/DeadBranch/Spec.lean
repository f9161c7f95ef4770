import Verif.DeadBranch.Model
import Verif.BlockMerge.Spec

/-!
# Specification: elimination of dead branches (C74)

Executions are those of `Verif.IfConv.Spec`, valid functions those of `Verif.CodeSink.Spec`. None of these know the
pass.
-/

namespace Verif.DeadBranch.Spec
open Verif.IfConv Verif.IfConv.Spec

variable {V M : Type}

/-- Constants mean what the pass takes them for: `num` is the number an integer stands for. -/
structure Means (S : Sem V M) (num : V → Nat) (fn : Fn) (A : Info) : Prop where
  no : ∀ d, A.kind d = .no → (∀ b, d ∉ defs (fn.block b)) ∧ ∀ v, S.start d = some v → S.truth v = false
  yes : ∀ d, A.kind d = .yes → (∀ b, d ∉ defs (fn.block b)) ∧ ∀ v, S.start d = some v → S.truth v = true
  /-- an `OpLogicalNot` of the function, not a phi -/
  neg : ∀ d x, A.kind d = .not x → S.start d = none ∧ (∀ b, d ∉ (fn.block b).phis.map Phi.id) ∧
    (∀ b, ∀ i ∈ (fn.block b).body, instId i = d → i = .op d [x]) ∧
    ∀ v m r m', S.act d [v] m r m' → S.truth r = !S.truth v
  int : ∀ d n, A.int d = some n → (∀ b, d ∉ defs (fn.block b)) ∧ ∀ v, S.start d = some v → num v = n
  /-- a switch goes to the case with the value of the selector, or to the default -/
  switch : ∀ b ls g ops ts, A.lits b = some ls → (fn.block b).term = .multi g ops ts →
    ∃ x d cs, ops = [x] ∧ ts = d :: cs ∧ cs.length = ls.length ∧
      ∀ v m t, S.jump g [v] m t ↔ t = ((ls.zip cs).lookup (num v)).getD d

/-- The same function without merge instructions. -/
def plain (fn : Fn) : Fn := { fn with block := fun b => { fn.block b with merge := none } }

/-- Loops have a back edge that their continue target dominates; continue targets are blocks of the function, each of
one loop. -/
structure Loops (fn : Fn) : Prop where
  back : ∀ h m c, h ∈ fn.labels → Reachable fn h → (fn.block h).merge = some (.loop m c) →
    ∃ q, h ∈ fn.succs q ∧ Dominates fn c q
  once : ∀ h h' m m' c, h ∈ fn.labels → h' ∈ fn.labels → (fn.block h).merge = some (.loop m c) →
    (fn.block h').merge = some (.loop m' c) → h = h'
  listed : ∀ h m c, h ∈ fn.labels → (fn.block h).merge = some (.loop m c) → c ∈ fn.labels

/-- An id of the module, which has a value at the start. -/
def Global (S : Sem V M) (fn : Fn) (x : Id) : Prop := S.start x ≠ none ∧ ∀ b, x ∉ defs (fn.block b)

/-- All `OpUndef` are outside of functions. -/
structure Undefs (S : Sem V M) (fn : Fn) (A : Info) : Prop where
  new : ∀ d, Global S fn (A.undef d)
  old : ∀ x, A.isUndef x = true → Global S fn x

/-- An id that was a phi and is none any more. -/
def Gone (fn fn' : Fn) (x : Id) : Prop :=
  (∃ b, x ∈ (fn.block b).phis.map Phi.id) ∧ ∀ b, x ∉ (fn'.block b).phis.map Phi.id

/-- Two configurations in the same block with the same memory, the same ways on, and the same values of all ids but
phis that are gone; and of all that a return reads. -/
structure Same (S : Sem V M) (fn fn' : Fn) (c c' : Config V M) : Prop where
  block : c'.block = c.block
  mem : c'.mem = c.mem
  goes : ∀ b, Goes S c'.env c'.mem (fn'.block c'.block).term b ↔ Goes S c.env c.mem (fn.block c.block).term b
  env : ∀ x, ¬ Gone fn fn' x → c'.env x = c.env x
  reads : fn.succs c.block = [] → (CodeSink.termReads (fn'.block c'.block).term).map c'.env =
    (CodeSink.termReads (fn.block c.block).term).map c.env

/-- Runs are the same: the same blocks in the same order, and `Same` configurations. -/
def RunsKept (S : Sem V M) (fn fn' : Fn) : Prop :=
  (∀ l c, Reach S fn l c → ∃ c', Reach S fn' l c' ∧ Same S fn fn' c c') ∧
  (∀ l c', Reach S fn' l c' → ∃ c, Reach S fn l c ∧ Same S fn fn' c c')

end Verif.DeadBranch.Spec
