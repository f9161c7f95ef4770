/-!
# Running passes  (source/opt/pass_manager.cpp, source/opt/pass.cpp, source/opt/optimizer.cpp)

A pass is an arbitrary function on the module (and its context) `σ`.  Printing, timing and
messages are not modelled.
-/
namespace Verif.PassManager

/-- `Pass::Status`, source/opt/pass.h:44-48. -/
inductive Status where
  | failure | withChange | withoutChange
  deriving DecidableEq, Repr

/-- A pass object: the flag `already_run_`, `Process`, and the
`InvalidateAnalysesExceptFor(GetPreservedAnalyses())` it entails. -/
structure Pass (σ : Type) where
  alreadyRun : Bool
  process : σ → Status × σ
  invalidate : σ → σ

/-- `Pass::Run`, source/opt/pass.cpp:30-46 (the debug-build consistency assertion is not
modelled). -/
def Pass.run {σ} (p : Pass σ) (m : σ) : Status × σ × Pass σ :=
  if p.alreadyRun then (.failure, m, p)
  else
    let p' := { p with alreadyRun := true }
    let r := p.process m
    if r.1 = .withChange then (r.1, p.invalidate r.2, p') else (r.1, r.2, p')

/-- What the manager is configured with: `validate_after_all_` and the validator, and the
effect of `SetIdBound(ComputeIdBound())`. -/
structure Config (σ : Type) where
  validateAll : Bool
  valid : σ → Bool
  fixBound : σ → σ

/-- `PassManager::Run`, source/opt/pass_manager.cpp:30-95.  A slot of `passes_` is `none`
after `pass.reset(nullptr)`; result `none` = a null pass is dereferenced (line 62).  Returns
the status, the module and `passes_`. -/
def runLoop {σ} (cfg : Config σ) : List (Option (Pass σ)) → σ → Status →
    Option (Status × σ × List (Option (Pass σ)))
  | [], m, st => some (st, if st = .withChange then cfg.fixBound m else m, [])
  | none :: _, _, _ => none
  | some p :: ps, m, st =>
    let r := p.run m
    if r.1 = .failure then some (.failure, r.2.1, some r.2.2 :: ps)
    else
      let st' := if r.1 = .withChange then .withChange else st
      if cfg.validateAll && !cfg.valid r.2.1 then some (.failure, r.2.1, some r.2.2 :: ps)
      else
        match runLoop cfg ps r.2.1 st' with
        | none => none
        | some (s, m', left) => some (s, m', if s = .failure then none :: left else [])

def run {σ} (cfg : Config σ) (ps : List (Option (Pass σ))) (m : σ) :=
  runLoop cfg ps m .withoutChange

/-- What `Optimizer::Run` is given besides the passes. -/
structure Opt (β σ : Type) where
  runValidator : Bool
  validBinary : β → Bool
  build : β → Option σ
  toBinary : σ → β
  cfg : Config σ

/-- `Optimizer::Run`, source/opt/optimizer.cpp:685-749: whether it reports success, and the
contents of `optimized_binary`, initially `out`.  The debug-build comparison with the input
is not modelled. -/
def optimizerRun {β σ} (o : Opt β σ) (ps : List (Option (Pass σ))) (input out : β) :
    Option (Bool × β) :=
  if o.runValidator && !o.validBinary input then some (false, out)
  else
    match o.build input with
    | none => some (false, out)
    | some m =>
      match run o.cfg ps m with
      | none => none
      | some (st, m', _) => if st = .failure then some (false, out) else some (true, o.toBinary m')

end Verif.PassManager
