import Verif.PassManager.Model

/-!
# C30: passes run in order, status and result are faithful
-/
namespace Verif.PassManager

namespace Spec
variable {σ : Type}

/-- Module left by one (not yet run) pass. -/
def effect (p : Pass σ) (m : σ) : σ :=
  match p.process m with
  | (.withChange, m') => p.invalidate m'
  | (_, m') => m'

/-- Module after running the passes one after another. -/
def after : List (Pass σ) → σ → σ
  | [], m => m
  | p :: ps, m => after ps (effect p m)

/-- What pass number `i` reports when it is reached. -/
def report (ps : List (Pass σ)) (m : σ) (i : Nat) (h : i < ps.length) : Status :=
  (ps[i].process (after (ps.take i) m)).1

/-- Pass `i` makes the run stop: it reports failure, or per-pass validation is on and the
module it leaves is invalid. -/
def Stops (cfg : Config σ) (ps : List (Pass σ)) (m : σ) (i : Nat) (h : i < ps.length) : Prop :=
  report ps m i h = .failure ∨ (cfg.validateAll = true ∧ cfg.valid (after (ps.take (i + 1)) m) = false)

end Spec
open Spec
variable {σ : Type}

theorem report_zero (p : Pass σ) (ps : List (Pass σ)) (m : σ) (h) :
    report (p :: ps) m 0 h = (p.process m).1 := rfl

theorem report_succ (p : Pass σ) (ps : List (Pass σ)) (m : σ) (i : Nat) (h) :
    report (p :: ps) m (i + 1) h = report ps (effect p m) i (by simpa using h) := rfl

theorem stops_succ (cfg : Config σ) (p : Pass σ) (ps : List (Pass σ)) (m : σ) (i : Nat) (h) :
    Stops cfg (p :: ps) m (i + 1) h ↔ Stops cfg ps (effect p m) i (by simpa using h) := Iff.rfl

theorem run_fresh (p : Pass σ) (hp : p.alreadyRun = false) (m : σ) :
    p.run m = ((p.process m).1, effect p m, { p with alreadyRun := true }) := by
  unfold Pass.run effect
  simp only [hp, Bool.false_eq_true, if_false]
  rcases h : p.process m with ⟨s, m'⟩
  cases s <;> simp

/-- Manager state after stopping at pass `k`. -/
def leftover (ps : List (Pass σ)) (k : Nat) : List (Option (Pass σ)) :=
  List.replicate k none ++
    match ps.drop k with
    | [] => []
    | p :: r => some { p with alreadyRun := true } :: r.map some

theorem runLoop_spec (cfg : Config σ) : ∀ (ps : List (Pass σ)) (m : σ) (st : Status),
    st ≠ .failure → (∀ p ∈ ps, p.alreadyRun = false) →
    (∃ k, ∃ h : k < ps.length, Stops cfg ps m k h ∧
        (∀ i (hi : i < k), ¬ Stops cfg ps m i (by omega)) ∧
        runLoop cfg (ps.map some) m st = some (.failure, after (ps.take (k + 1)) m, leftover ps k)) ∨
    ((∀ i (h : i < ps.length), ¬ Stops cfg ps m i h) ∧
      ((((∃ i, ∃ h : i < ps.length, report ps m i h = .withChange) ∨ st = .withChange) ∧
        runLoop cfg (ps.map some) m st = some (.withChange, cfg.fixBound (after ps m), [])) ∨
       (((∀ i (h : i < ps.length), report ps m i h = .withoutChange) ∧ st = .withoutChange) ∧
        runLoop cfg (ps.map some) m st = some (.withoutChange, after ps m, [])))) := by
  intro ps
  induction ps with
  | nil =>
    intro m st hst _
    right
    refine ⟨by simp, ?_⟩
    cases st
    · exact absurd rfl hst
    · left; exact ⟨Or.inr rfl, rfl⟩
    · right; exact ⟨⟨by simp, rfl⟩, rfl⟩
  | cons p ps ih =>
    intro m st hst hf
    have hp := hf p (by simp)
    have hps : ∀ q ∈ ps, q.alreadyRun = false := fun q hq => hf q (by simp [hq])
    have hrun := run_fresh p hp m
    simp only [List.map_cons, runLoop, hrun]
    by_cases hfail : (p.process m).1 = .failure
    · left
      exact ⟨0, by simp, Or.inl hfail, by simp, by simp [hfail, leftover, after]⟩
    · rw [if_neg hfail]
      by_cases hv : (cfg.validateAll && !cfg.valid (effect p m)) = true
      · left
        refine ⟨0, by simp, Or.inr (by simpa [after] using hv), by simp, ?_⟩
        rw [if_pos hv]; simp [leftover, after]
      · rw [if_neg hv]
        have h0 : ¬ Stops cfg (p :: ps) m 0 (by simp) := by
          rintro (h | h)
          · exact hfail h
          · exact hv (by simpa [after] using h)
        have hst' : (if (p.process m).1 = Status.withChange then Status.withChange else st) ≠ .failure := by
          split
          · simp
          · exact hst
        rcases ih (effect p m) _ hst' hps with ⟨k, hk, h1, h2, h3⟩ | ⟨h1, h2⟩
        · left
          refine ⟨k + 1, by simpa using hk, (stops_succ ..).2 h1, ?_, ?_⟩
          · intro i hi
            cases i with
            | zero => exact h0
            | succ i => exact h2 i (by omega)
          · rw [h3]
            simp only [if_true, leftover, List.replicate_succ, List.drop_succ_cons, List.cons_append,
              List.take_succ_cons, after]
        · right
          refine ⟨?_, ?_⟩
          · intro i hi
            cases i with
            | zero => exact h0
            | succ i => exact h1 i (by simpa using hi)
          · rcases h2 with ⟨h2, h3⟩ | ⟨⟨h2, h4⟩, h3⟩
            · left
              refine ⟨?_, by rw [h3]; simp [after]⟩
              rcases h2 with ⟨i, hi, h⟩ | h
              · exact Or.inl ⟨i + 1, by simpa using hi, h⟩
              · split at h
                · exact Or.inl ⟨0, by simp, by assumption⟩
                · exact Or.inr h
            · right
              have hc : (p.process m).1 ≠ .withChange := by
                intro hc; rw [if_pos hc] at h4; cases h4
              rw [if_neg hc] at h4
              refine ⟨⟨?_, h4⟩, by rw [h3]; simp [after]⟩
              intro i hi
              cases i with
              | zero =>
                rw [report_zero]
                rcases hh : (p.process m).1 with _ | _ | _
                · exact absurd hh hfail
                · exact absurd hh hc
                · rfl
              | succ i => exact h2 i (by simpa using hi)

/-- C30: for any passes registered in a fresh manager, either some pass stops the run, and
then the first such pass `k` makes the result Failure, with the module left by exactly the
passes `0..k` in order; or none does, and the result is "changed" exactly when some pass
reported a change, with the module left by all passes in order (and its header bound
recomputed if there was a change). -/
theorem run_spec (cfg : Config σ) (ps : List (Pass σ)) (m : σ)
    (hf : ∀ p ∈ ps, p.alreadyRun = false) :
    (∃ k, ∃ h : k < ps.length, Stops cfg ps m k h ∧ (∀ i (hi : i < k), ¬ Stops cfg ps m i (by omega)) ∧
        ∃ left, run cfg (ps.map some) m = some (.failure, after (ps.take (k + 1)) m, left)) ∨
    ((∀ i (h : i < ps.length), ¬ Stops cfg ps m i h) ∧
      (((∃ i, ∃ h : i < ps.length, report ps m i h = .withChange) ∧
        run cfg (ps.map some) m = some (.withChange, cfg.fixBound (after ps m), [])) ∨
       ((∀ i (h : i < ps.length), report ps m i h = .withoutChange) ∧
        run cfg (ps.map some) m = some (.withoutChange, after ps m, [])))) := by
  rcases runLoop_spec cfg ps m .withoutChange (by simp) hf with ⟨k, h, h1, h2, h3⟩ | ⟨h1, h2⟩
  · exact Or.inl ⟨k, h, h1, h2, _, h3⟩
  · refine Or.inr ⟨h1, ?_⟩
    rcases h2 with ⟨h2, h3⟩ | ⟨⟨h2, _⟩, h3⟩
    · rcases h2 with h2 | h2
      · exact Or.inl ⟨h2, h3⟩
      · cases h2
    · exact Or.inr ⟨h2, h3⟩

/-- C30, `Optimizer::Run`: it reports success exactly when the input passes validation (if
asked for), can be loaded, and no pass stops the run; the output buffer is then replaced by
the binary of the module all passes produced, in order.  On failure the output is untouched. -/
theorem optimizerRun_spec {β : Type} (o : Opt β σ) (ps : List (Pass σ)) (input out : β)
    (hf : ∀ p ∈ ps, p.alreadyRun = false) :
    (∃ m, (o.runValidator = true → o.validBinary input = true) ∧ o.build input = some m ∧
      (∀ i (h : i < ps.length), ¬ Stops o.cfg ps m i h) ∧
      ∃ m', (m' = after ps m ∨ m' = o.cfg.fixBound (after ps m)) ∧
        optimizerRun o (ps.map some) input out = some (true, o.toBinary m')) ∨
    (((o.runValidator = true ∧ o.validBinary input = false) ∨ o.build input = none ∨
        ∃ m, o.build input = some m ∧ ∃ i, ∃ h : i < ps.length, Stops o.cfg ps m i h) ∧
      optimizerRun o (ps.map some) input out = some (false, out)) := by
  unfold optimizerRun
  by_cases hv : (o.runValidator && !o.validBinary input) = true
  · right; rw [if_pos hv]; exact ⟨Or.inl (by simpa using hv), rfl⟩
  · rw [if_neg hv]
    cases hb : o.build input with
    | none => right; exact ⟨Or.inr (Or.inl rfl), rfl⟩
    | some m =>
      simp only
      have hv' : o.runValidator = true → o.validBinary input = true := by
        intro h; simpa [h] using hv
      rcases run_spec o.cfg ps m hf with ⟨k, h, h1, _, _, h3⟩ | ⟨h1, ⟨_, h3⟩ | ⟨_, h3⟩⟩
      · right; rw [h3]; exact ⟨Or.inr (Or.inr ⟨m, rfl, k, h, h1⟩), rfl⟩
      · left; rw [h3]; exact ⟨m, hv', rfl, h1, _, Or.inr rfl, rfl⟩
      · left; rw [h3]; exact ⟨m, hv', rfl, h1, _, Or.inl rfl, rfl⟩

/-- After a successful run the manager is empty: running it again does nothing. -/
theorem run_again_after_success (cfg : Config σ) (ps : List (Pass σ)) (m m' : σ) (st : Status) (left)
    (hf : ∀ p ∈ ps, p.alreadyRun = false) (hs : st ≠ .failure)
    (h : run cfg (ps.map some) m = some (st, m', left)) (m2 : σ) :
    run cfg left m2 = some (.withoutChange, m2, []) := by
  rcases run_spec cfg ps m hf with ⟨k, _, _, _, l, h3⟩ | ⟨_, ⟨_, h3⟩ | ⟨_, h3⟩⟩
  · rw [h3] at h; simp only [Option.some.injEq, Prod.mk.injEq] at h; exact absurd h.1.symm hs
  all_goals
    rw [h3] at h
    simp only [Option.some.injEq, Prod.mk.injEq] at h
    rw [← h.2.2]; rfl

/-- Using the same manager again after a failed run is not safe: the slots of the passes
already run are null, and the second run dereferences the first of them (pass `k ≥ 1`
failed); if the very first pass failed the second run fails without running anything. -/
theorem run_again_after_failure (cfg : Config σ) (ps : List (Pass σ)) (m m' : σ) (left)
    (hf : ∀ p ∈ ps, p.alreadyRun = false)
    (h : run cfg (ps.map some) m = some (.failure, m', left)) (m2 : σ) :
    run cfg left m2 = none ∨
    ((∃ h0 : 0 < ps.length, Stops cfg ps m 0 h0) ∧ ∃ left', run cfg left m2 = some (.failure, m2, left')) := by
  rcases runLoop_spec cfg ps m .withoutChange (by simp) hf with ⟨k, hk, h1, h2, h3⟩ | ⟨_, ⟨_, h3⟩ | ⟨_, h3⟩⟩
  · have h' := h
    unfold run at h'
    rw [h3] at h'
    simp only [Option.some.injEq, Prod.mk.injEq, true_and] at h'
    rw [← h'.2]
    cases k with
    | zero =>
      right
      refine ⟨⟨hk, h1⟩, ?_⟩
      cases ps with
      | nil => simp at hk
      | cons p ps => exact ⟨_, by simp [leftover, run, runLoop, Pass.run]; rfl⟩
    | succ k => left; simp [leftover, List.replicate_succ, run, runLoop]
  all_goals (unfold run at h; rw [h3] at h; simp at h)

/-! ### A concrete run -/
namespace Example
def addOne : Pass Nat := ⟨false, fun n => (.withChange, n + 1), id⟩
def double : Pass Nat := ⟨false, fun n => if n = 0 then (.withoutChange, n) else (.withChange, 2 * n), id⟩
def bad : Pass Nat := ⟨false, fun n => (.failure, n + 100), id⟩
def cfg : Config Nat := ⟨true, fun n => n < 50, id⟩

example : (run cfg ([double, addOne, double].map some) 3).map (fun r => (r.1, r.2.1)) =
    some (.withChange, 14) := by decide
example : (run cfg ([addOne, bad, double].map some) 3).map (fun r => (r.1, r.2.1)) =
    some (.failure, 104) := by decide
example : (run cfg ([addOne, double, double].map some) 20).map (fun r => (r.1, r.2.1)) =
    some (.failure, 84) := by decide
example : ∀ p ∈ [addOne, bad, double], p.alreadyRun = false := by decide
/-- The hypothesis of `run_again_after_failure` is met, with the null dereference. -/
example : (run cfg ([addOne, bad, double].map some) 3).bind (fun r => (run cfg r.2.2 0).map (fun _ => ())) = none := by
  decide
end Example

end Verif.PassManager
