import Verif.StringLit.Model

/-!
# Fresh ids  (source/opt/module.cpp:29-39, source/opt/ir_context.h:569-591)
-/
namespace Verif.NextId
open Verif.StringLit (Word)

/-- The part of the context fresh ids depend on. -/
structure Ctx where
  bound : Word
  maxBound : Word
  overflow : Bool
  deriving DecidableEq, Repr

/-- `Module::TakeNextIdBound`, source/opt/module.cpp:29-39, with a context (its
`max_id_bound()`; without one the limit is `kDefaultMaxIdBound`). -/
def takeNextIdBound (bound maxBound : Word) : Word × Word :=
  if bound ≥ maxBound then (0, bound) else (bound, bound + 1)

/-- `IRContext::TakeNextId`, source/opt/ir_context.h:569-591; the message to the consumer is
not modelled. -/
def takeNextId (c : Ctx) : Word × Ctx :=
  let r := takeNextIdBound c.bound c.maxBound
  if r.1 = 0 then (r.1, { c with bound := r.2, overflow := true }) else (r.1, { c with bound := r.2 })

/-- `n` requests in a row: the ids handed out, and the final context. -/
def takeMany : Nat → Ctx → List Word × Ctx
  | 0, c => ([], c)
  | n + 1, c =>
    let r := takeNextId c
    let t := takeMany n r.2
    (r.1 :: t.1, t.2)

end Verif.NextId
