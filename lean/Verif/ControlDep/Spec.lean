import Verif.ControlDep.Model
import Verif.DomTree.Props
/-!
# Control dependence in terms of paths
-/
namespace Verif.ControlDep.Spec
open Verif.Cfa Verif.Cfa.Spec Verif.DomTree Verif.DomTree.Spec Verif.ControlDep

variable {B : Type} [DecidableEq B]

/-- The branch from `s` to `v` decides that `a` is visited: from `v` on every path to an exit
goes through `a`, from `s` on (other than `a` itself) not every path does. -/
structure Decides (f : Func B) (s a v : B) : Prop where
  edge : Flow f s v
  exit : CanExit f v
  sure : PostDominates f a v
  open_ : ¬ (a ≠ s ∧ PostDominates f a s)

/-- `a` is control dependent on `s`, as in source/opt/control_dependence.h:92-98: a path leads
from `s` to `a`, `a` post-dominates all blocks on it after `s`, but `a` does not strictly
post-dominate `s`. -/
def Dependent (f : Func B) (a s : B) : Prop :=
  ¬ (a ≠ s ∧ PostDominates f a s) ∧
  ∃ v p, Flow f s v ∧ CanExit f v ∧ Path (Flow f) v a p ∧ ∀ x ∈ p, PostDominates f a x

end Verif.ControlDep.Spec
