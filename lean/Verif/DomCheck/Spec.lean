import Verif.Cfa.Spec
import Verif.DomCheck.Model
/-!
# What the dominance check is supposed to establish
-/
namespace Verif.DomCheck.Spec
open Verif.Cfa Verif.Cfa.Spec
variable {B : Type} [DecidableEq B]

/-- Control flow of a function: the branches of its blocks. -/
def Flow (f : Func B) (u v : B) : Prop := v ∈ f.succ u

/-- `b` is a reachable block of function `f`, whose entry block is `first`. -/
def ReachableIn (f : Func B) (first b : B) : Prop :=
  f.ordered.head? = some first ∧ Reach (Flow f) first b

/-- Block `d` dominates the reachable block `b`: every path from the entry block of its
function to `b` goes through `d`. -/
def DominatesReachable (m : Module B) (d b : B) : Prop :=
  ∃ f ∈ m.funcs, ∃ first, ReachableIn f first b ∧ Dominates (Flow f) first d b

/-- `b` is reachable from the entry of its function. -/
def Reachable (m : Module B) (b : B) : Prop := ∃ f ∈ m.funcs, ∃ first, ReachableIn f first b

/-- Definitions dominate their uses. -/
structure UsesDominated (m : Module B) : Prop where
  /-- An id defined in a block and used in a reachable block by anything but a phi: the
  defining block dominates the using block. -/
  plain : ∀ d ∈ m.insts, ∀ u ∈ m.insts, ∀ db ub, d.id ≠ 0 → d.id ∈ u.uses →
    d.block = some db → u.block = some ub → u.phi = false → Reachable m ub →
    DominatesReachable m db ub
  /-- A phi in a reachable block takes from each reachable parent a value whose defining
  block dominates the parent. -/
  phi : ∀ u ∈ m.insts, ∀ d ∈ m.insts, ∀ db ub parent, u.phi = true → d.id ≠ 0 →
    (d.id, parent) ∈ u.incoming → d.block = some db → u.block = some ub → Reachable m ub →
    Reachable m parent → DominatesReachable m db parent
  /-- Labels and parameters are only used in their own function. -/
  scope : ∀ d ∈ m.insts, ∀ u ∈ m.insts, ∀ f g, d.id ≠ 0 → d.id ∈ u.uses → d.block = none →
    d.func = some f → u.func = some g → g = f

/-- What parsing and the earlier passes guarantee of a function: its blocks are distinct,
branches and merges stay inside, the pseudo blocks are its own. -/
structure FuncOk (f : Func B) : Prop where
  nodup : f.ordered.Nodup
  closed : ∀ u v, v ∈ f.ssucc u → u ∈ f.ordered ∧ v ∈ f.ordered
  entry : f.pseudoEntry ∉ f.ordered
  exit : f.pseudoExit ∉ f.ordered
  distinct : f.pseudoEntry ≠ f.pseudoExit

/-- All blocks of a function, pseudo blocks included. -/
def members (f : Func B) : List B := f.pseudoEntry :: f.pseudoExit :: f.ordered

/-- What parsing and the earlier passes guarantee of a module. -/
structure ModuleOk (m : Module B) : Prop where
  funcs : ∀ f ∈ m.funcs, FuncOk f
  /-- functions do not share blocks -/
  disjoint : m.funcs.Pairwise fun f g => ∀ b, b ∈ members f → b ∉ members g
  /-- result ids are unique -/
  ids : (m.insts.filter (·.id ≠ 0)).Pairwise fun a b => a.id ≠ b.id
  /-- a phi has a result, a block, and mentions the values it takes, which are defined -/
  phis : ∀ i ∈ m.insts, i.phi = true → i.id ≠ 0 ∧ i.block ≠ none ∧
    ∀ w p, (w, p) ∈ i.incoming → w ∈ i.uses ∧ ∃ d ∈ m.insts, d.id = w ∧ w ≠ 0
  /-- an instruction in a block is in a function -/
  inFunc : ∀ i ∈ m.insts, i.block ≠ none → i.func ≠ none

/-- Every block whose merge instruction names a block it does not branch to can leave the
function: along branches and merge instructions it reaches a block without any. (In a shader
a function whose header blocks are all in endless loops fails this.) -/
def MergesExit (f : Func B) : Prop :=
  ∀ b, (∃ v ∈ f.merges b, v ∉ f.succ b) →
    ∃ x, Reach (fun u v => v ∈ f.ssucc u) b x ∧ f.ssucc x = []

end Verif.DomCheck.Spec
