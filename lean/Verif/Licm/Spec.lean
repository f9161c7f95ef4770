import Verif.Licm.Model
import Verif.CodeSink.Spec

/-!
# Specification: loops and analyses (C72)

Executions are those of `Verif.IfConv.Spec`; valid functions, steady instructions and runs in common those of
`Verif.CodeSink.Spec`. None of these know the pass.
-/

namespace Verif.Licm.Spec
open Verif.IfConv Verif.CodeSink Verif.CodeSink.Spec
open Verif.IfConv.Spec hiding Valid

/-- The analysis says what it should. -/
structure Right (fn : Fn) (A : Info) : Prop where
  live : ∀ b, A.live b = true ↔ Reachable fn b
  dom : ∀ a b, Reachable fn b → (A.dom a b = true ↔ Dominates fn a b)

/-- Nothing after a loop goes back into it: an edge from a block below the merge block does not go to a block
that is below the header and not below the merge block. -/
def Closed (fn : Fn) : Prop :=
  ∀ h m c, (fn.block h).merge = some (.loop m c) → ∀ a b, Reachable fn a → b ∈ fn.succs a →
    Dominates fn m a → Dominates fn h b → Dominates fn m b

end Verif.Licm.Spec
