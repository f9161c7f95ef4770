import Verif.Cfa.Spec
import Verif.Propagator.Model
/-!
# What propagation is supposed to reach
-/
namespace Verif.Propagator.Spec
open Verif.Propagator Verif.Cfa.Spec
variable {I B V : Type} [DecidableEq I] [DecidableEq B]

/-- Instruction `i` takes its value from `d`: `d` defines one of the values a phi chooses
from, or an id operand of any other instruction. -/
def Uses (p : Prog I B) (i d : I) : Prop :=
  if p.isPhi i then ∃ b, (d, b) ∈ p.args i else d ∈ p.inDefs i

/-- A function in SSA form, consistently described. -/
structure WellFormed (p : Prog I B) : Prop where
  /-- `get_instr_block` is right -/
  block : ∀ i b, p.block i = some b ↔ i ∈ p.insts b
  /-- the leading phis are all the phis -/
  phis : ∀ b i, i ∈ p.phis b ↔ i ∈ p.insts b ∧ p.isPhi i = true
  /-- users are registered -/
  users : ∀ i d, Uses p i d → i ∈ p.users d
  /-- a terminator is the last instruction of its block, is no phi and defines nothing -/
  last : ∀ b l₁ i l₂, p.terminator i = true → p.insts b = l₁ ++ i :: l₂ → l₂ = []
  termPhi : ∀ i, p.terminator i = true → p.isPhi i = false
  termUse : ∀ i d, p.terminator d = true → ¬ Uses p i d
  /-- within a block, definitions come before their uses other than in phis -/
  order : ∀ b l₁ d l₂ i, p.insts b = l₁ ++ d :: l₂ → i ∈ p.insts b → p.isPhi i = false →
    Uses p i d → i ∈ l₂
  /-- a phi takes a value from a predecessor dominated by the definition -/
  phiArgs : ∀ i b d q, p.isPhi i = true → p.block i = some b → (d, q) ∈ p.args i →
    q ≠ p.pseudoEntry ∧ ∀ bd, p.block d = some bd →
      Dominates (fun u v => v ∈ p.succs u) p.entry bd q
  /-- every block has a way on, and the pseudo exit is not a block of the function -/
  succs : ∀ b, b ≠ p.pseudoExit → p.succs b ≠ []
  exit : ∀ b i, i ∈ p.insts b → b ≠ p.pseudoExit
  entry : p.entry ≠ p.pseudoExit

/-- The visit function only chooses destinations for terminators, and among the successors. -/
def ChoosesSuccessors (p : Prog I B) (visit : V → List (B × B) → I → V × Answer B) : Prop :=
  ∀ v e i st d, (visit v e i).2 = (st, some d) →
    p.terminator i = true ∧ ∀ b, p.block i = some b → d ∈ p.succs b

/-- The answer to the latest call for `d`. -/
def lastStatus (t : List (Call I B)) (d : I) : Option Status :=
  (t.find? fun c => decide (c.inst = d)).map (·.status)

/-- The latest call for phi `i` of block `b` took all executable edges it has values for into
account. -/
def Saw (p : Prog I B) (i : I) (b : B) (s : State I B V) : Prop :=
  ∃ c, s.trace.find? (fun c => decide (c.inst = i)) = some c ∧
    ∀ a ∈ p.args i, (a.2, b) ∈ s.edges → (a.2, b) ∈ c.seen

/-- The call `c`, made after the calls `earlier`, gave its instruction a new status, other
than "not interesting". -/
def Changes (earlier : List (Call I B)) (c : Call I B) : Prop :=
  c.status ≠ .notInteresting ∧ lastStatus earlier c.inst ≠ some c.status

/-- State of the propagator when it is done. `trace` holds the calls of the visit function,
newest first. -/
structure Settled (p : Prog I B) (s : State I B V) : Prop where
  /-- the blocks simulated are those reached from the entry along executable edges -/
  reach : ∀ b, b ∈ s.simulated ↔ Reach (fun u v => (u, v) ∈ s.edges) p.entry b
  /-- all their instructions were visited -/
  visited : ∀ b ∈ s.simulated, ∀ i ∈ p.insts b, ∃ c ∈ s.trace, c.inst = i
  /-- the edge out of a simulated block with a single successor is executable -/
  single : ∀ b ∈ s.simulated, ∀ d, p.succs b = [d] → d ≠ p.pseudoExit → (b, d) ∈ s.edges
  /-- so are all edges out of a block with varying terminator -/
  allOut : ∀ b i, p.block i = some b → p.terminator i = true →
    lastStatus s.trace i = some .varying → ∀ d ∈ p.succs b, d ≠ p.pseudoExit → (b, d) ∈ s.edges
  /-- so are those the visit function chose -/
  chosen : ∀ c ∈ s.trace, ∀ b d, c.status = .interesting → c.dest = some d →
    p.block c.inst = some b → d ≠ p.pseudoExit → (b, d) ∈ s.edges
  /-- and no others -/
  only : ∀ u v, (u, v) ∈ s.edges → (u = p.pseudoEntry ∧ v = p.entry) ∨
    (u ∈ s.simulated ∧ (p.succs u = [v] ∨ ∃ c ∈ s.trace, p.block c.inst = some u ∧
      ((c.status = .varying ∧ p.terminator c.inst = true ∧ v ∈ p.succs u) ∨
       (c.status = .interesting ∧ c.dest = some v))))
  /-- each instruction of a simulated block was visited after the last change of what it
  uses, unless it is varying (the bottom) already, or is a phi that would receive the value
  along edges that are not executable -/
  stable : ∀ i d b, p.block i = some b → b ∈ s.simulated → Uses p i d →
    ∀ later c earlier, s.trace = later ++ c :: earlier → c.inst = d → Changes earlier c →
      (∃ c' ∈ later, c'.inst = i) ∨ lastStatus s.trace i = some .varying ∨
      (p.isPhi i = true ∧ ∀ q, (d, q) ∈ p.args i → (q, b) ∉ s.edges)
  /-- each phi was visited after the last edge to it became executable, or is varying -/
  phis : ∀ i b, p.isPhi i = true → p.block i = some b → b ∈ s.simulated →
    lastStatus s.trace i = some .varying ∨ Saw p i b s

end Verif.Propagator.Spec
