import Verif.Reducer.Lemmas

/-!
# C34, C35: the reducer

`Spec.Derives` and `Spec.Minimal` (top of `Lemmas.lean`) are the specification: a chain of
valid and interesting binaries, and "no single opportunity is valid and interesting".
-/
namespace Verif.Reducer
variable {β : Type}

private theorem init_gran (fs : List (Finder β)) :
    ∀ p ∈ fs.map (fun f => (f, PassState.init)), 0 < p.2.gran := by
  intro p hp; obtain ⟨f, _, rfl⟩ := List.mem_map.1 hp; simp [PassState.init]

private theorem init_index (fs : List (Finder β)) :
    ∀ p ∈ fs.map (fun f => (f, PassState.init)), p.2.index = 0 := by
  intro p hp; obtain ⟨f, _, rfl⟩ := List.mem_map.1 hp; simp [PassState.init]

private theorem init_map (fs : List (Finder β)) :
    (fs.map (fun f => (f, PassState.init))).map (·.1) = fs := by
  induction fs with
  | nil => rfl
  | cons f fs ih => rw [List.map_cons, List.map_cons, ih]

private theorem init_mem {fs : List (Finder β)} {f : Finder β} (h : f ∈ fs) :
    (f, PassState.init) ∈ fs.map (fun f => (f, PassState.init)) :=
  List.mem_map.2 ⟨f, h, rfl⟩

/-- All facts about `Run` in one place. -/
private theorem run_facts (c : Config β) (fuel : Nat) (passes cleanup : List (Finder β)) (b : β)
    (status : Status) (out : Option β) (a : Nat) (hv : c.valid b = true)
    (hi : c.interesting b 0 = true)
    (h : run c fuel passes cleanup b = some (status, out, a)) :
    ∃ o, out = some o ∧
      (status = .stateInvalid → c.failOnInvalid = true ∧ c.valid o = false) ∧
      (status ≠ .stateInvalid → Spec.Derives c (passes ++ cleanup) b o) ∧
      a ≤ c.limit + (max passes.length cleanup.length - 1) ∧
      (status = .complete → ∃ mid, Spec.Derives c passes b mid ∧ Spec.Derives c cleanup mid o ∧
        (∀ f ∈ passes, Spec.Minimal c f mid) ∧ (∀ f ∈ cleanup, Spec.Minimal c f o)) ∧
      (status = .complete → a < c.limit) ∧ (status = .reachedStepLimit → c.limit ≤ a) ∧
      (status = .stateInvalid ∨ status = .reachedStepLimit ∨ status = .complete) := by
  simp only [run, hv, hi, Bool.not_true, Bool.false_eq_true, if_false] at h
  generalize h1 : runPasses c fuel (passes.map fun f => (f, PassState.init)) ⟨b, 0, true⟩ = r1 at h
  match r1, h1, h with
  | some (s1, m, a1), h1, h =>
    obtain ⟨i1, i2, i3, i4, i5, i6, i7⟩ := runPasses_spec c fuel _ _ s1 m a1 (init_gran passes)
      (fun _ => init_index passes) h1
    rw [init_map] at i2
    simp only [List.length_map] at i3
    have i3 := i3 (by simp)
    by_cases hs : s1 = .complete
    · subst hs
      simp only at h
      generalize h2 : runPasses c fuel (cleanup.map fun f => (f, PassState.init)) ⟨m, a1, true⟩ = r2 at h
      match r2, h2, h with
      | some (s2, o, a2), h2, h =>
        simp only [Option.some.injEq, Prod.mk.injEq] at h
        obtain ⟨rfl, rfl, rfl⟩ := h
        obtain ⟨j1, j2, j3, j4, j5, j6, j7⟩ := runPasses_spec c fuel _ _ s2 o a2 (init_gran cleanup)
          (fun _ => init_index cleanup) h2
        rw [init_map] at j2
        simp only [List.length_map] at j3
        have j3 := j3 (by have := i4 rfl; omega)
        have hd := i2 (by simp)
        refine ⟨o, rfl, j1, fun h => ?_, by omega, fun h => ?_, j4, j6, j7⟩
        · exact (hd.mono (by intro f hf; exact List.mem_append_left _ hf)).trans
            ((j2 h).mono (by intro f hf; exact List.mem_append_right _ hf))
        · exact ⟨m, hd, j2 (by rw [h]; simp), fun f hf => i5 rfl rfl _ (init_mem hf),
            fun f hf => j5 h rfl _ (init_mem hf)⟩
    · have h' : s1 = status ∧ some m = out ∧ a1 = a := by
        cases s1 <;> simp_all
      obtain ⟨rfl, rfl, rfl⟩ := h'
      refine ⟨m, rfl, i1, fun h => ?_, by omega, fun h => absurd h hs, fun h => absurd h hs, i6, i7⟩
      exact (i2 h).mono (by intro f hf; exact List.mem_append_left _ hf)

/-- **C34.** If the reducer gets past its checks of the initial binary then it writes an
output. Unless it reports `kStateInvalid`, that output is valid, interesting, and was
reached from the input by a chain of valid interesting binaries. `kStateInvalid` is
reported only when the user asked to fail on validation errors, and then the output is the
offending invalid binary. -/
theorem reducer_output (c : Config β) (fuel : Nat) (passes cleanup : List (Finder β)) (b : β)
    (status : Status) (out : Option β) (a : Nat)
    (h : run c fuel passes cleanup b = some (status, out, a))
    (hv : c.valid b = true) (hi : c.interesting b 0 = true) :
    ∃ o, out = some o ∧
      (status ≠ .stateInvalid →
        c.valid o = true ∧ (∃ k, c.interesting o k = true) ∧ Spec.Derives c (passes ++ cleanup) b o) ∧
      (status = .stateInvalid → c.failOnInvalid = true ∧ c.valid o = false) := by
  obtain ⟨o, h1, h2, h3, -⟩ := run_facts c fuel passes cleanup b status out a hv hi h
  refine ⟨o, h1, fun hs => ?_, h2⟩
  have := (h3 hs).good hv ⟨0, hi⟩
  exact ⟨this.1, this.2, h3 hs⟩

/-- **C34.** An invalid or uninteresting initial binary is reported as such and nothing is
written to the output; and those two statuses are reported in no other case. -/
theorem reducer_initial (c : Config β) (fuel : Nat) (passes cleanup : List (Finder β)) (b : β)
    (status : Status) (out : Option β) (a : Nat)
    (h : run c fuel passes cleanup b = some (status, out, a)) :
    (status = .initialInvalid ↔ c.valid b = false) ∧
    (status = .initialNotInteresting ↔ c.valid b = true ∧ c.interesting b 0 = false) ∧
    (out = none ↔ c.valid b = false ∨ c.interesting b 0 = false) := by
  cases hv : c.valid b
  · simp only [run, hv, Bool.not_false, if_true, Option.some.injEq, Prod.mk.injEq] at h
    obtain ⟨rfl, rfl, rfl⟩ := h
    simp
  · cases hi : c.interesting b 0
    · simp only [run, hv, hi, Bool.not_false, Bool.not_true, Bool.false_eq_true, if_false, if_true,
        Option.some.injEq, Prod.mk.injEq] at h
      obtain ⟨rfl, rfl, rfl⟩ := h
      simp
    · obtain ⟨o, h1, -, -, -, -, -, -, h4⟩ := run_facts c fuel passes cleanup b status out a hv hi h
      subst h1
      rcases h4 with h4 | h4 | h4 <;> subst h4 <;> simp

/-- **C35.** The reducer terminates for every validator, every interestingness function,
every step limit, and every behaviour of the passes (they may even grow the binary). -/
theorem reducer_terminates (c : Config β) (passes cleanup : List (Finder β)) (b : β) :
    ∃ F r, ∀ fuel ≥ F, run c fuel passes cleanup b = some r := by
  by_cases hv : c.valid b = true
  · by_cases hi : c.interesting b 0 = true
    · obtain ⟨n1, r1, h1⟩ := runPasses_terminates c (passes.map fun f => (f, PassState.init))
        ⟨b, 0, true⟩ (init_gran passes)
      obtain ⟨s1, m, a1⟩ := r1
      obtain ⟨n2, r2, h2⟩ := runPasses_terminates c (cleanup.map fun f => (f, PassState.init))
        ⟨m, a1, true⟩ (init_gran cleanup)
      obtain ⟨s2, o, a2⟩ := r2
      by_cases hs : s1 = .complete
      · subst hs
        refine ⟨max n1 n2, (s2, some o, a2), fun fuel hf => ?_⟩
        have e1 := runPasses_mono c n1 _ _ _ h1 fuel (by omega)
        have e2 := runPasses_mono c n2 _ _ _ h2 fuel (by omega)
        simp only [run, hv, hi, Bool.not_true, Bool.false_eq_true, if_false, e1, e2]
      · refine ⟨n1, (s1, some m, a1), fun fuel hf => ?_⟩
        have e1 := runPasses_mono c n1 _ _ _ h1 fuel (by omega)
        simp only [run, hv, hi, Bool.not_true, Bool.false_eq_true, if_false, e1]
    · exact ⟨0, (.initialNotInteresting, none, 0), fun fuel _ => by simp_all [run]⟩
  · exact ⟨0, (.initialInvalid, none, 0), fun fuel _ => by simp_all [run]⟩

/-- **C35.** The number of attempted reductions exceeds the step limit by at most the
number of passes minus one; `kComplete` means the limit was not reached and
`kReachedStepLimit` that it was. -/
theorem reducer_attempts_bounded (c : Config β) (fuel : Nat) (passes cleanup : List (Finder β))
    (b : β) (status : Status) (out : Option β) (a : Nat)
    (h : run c fuel passes cleanup b = some (status, out, a)) :
    a ≤ c.limit + (max passes.length cleanup.length - 1) ∧
    (status = .complete → a < c.limit) ∧ (status = .reachedStepLimit → c.limit ≤ a) := by
  cases hv : c.valid b
  · simp only [run, hv, Bool.not_false, if_true, Option.some.injEq, Prod.mk.injEq] at h
    obtain ⟨rfl, rfl, rfl⟩ := h
    simp
  · cases hi : c.interesting b 0
    · simp only [run, hv, hi, Bool.not_false, Bool.not_true, Bool.false_eq_true, if_false, if_true,
        Option.some.injEq, Prod.mk.injEq] at h
      obtain ⟨rfl, rfl, rfl⟩ := h
      simp
    · obtain ⟨o, -, -, -, h1, -, h2, h3, -⟩ := run_facts c fuel passes cleanup b status out a hv hi h
      exact ⟨h1, h2, h3⟩

/-- **C35, what holds of minimality.** On completion the output is 1-minimal for every
cleanup pass, and it was derived by cleanup steps from a binary that is 1-minimal for every
main pass. Missing from the full claim: 1-minimality of the *final* output for the main
passes, which the code does not ensure, see `reducer_not_minimal_after_cleanup`. -/
theorem reducer_minimal_partial (c : Config β) (fuel : Nat) (passes cleanup : List (Finder β))
    (b : β) (out : Option β) (a : Nat)
    (h : run c fuel passes cleanup b = some (.complete, out, a)) :
    ∃ mid o, out = some o ∧ Spec.Derives c cleanup mid o ∧
      (∀ f ∈ passes, Spec.Minimal c f mid) ∧ (∀ f ∈ cleanup, Spec.Minimal c f o) := by
  have hi := reducer_initial c fuel passes cleanup b _ _ _ h
  simp only [reduceCtorEq, false_iff, Bool.not_eq_false, not_and] at hi
  obtain ⟨o, h1, -, -, -, h2, -⟩ := run_facts c fuel passes cleanup b _ out a hi.1
    (hi.2.1 hi.1) h
  obtain ⟨mid, -, h3, h4, h5⟩ := h2 rfl
  exact ⟨mid, o, h1, h3, h4, h5⟩

/-- **C35.** Without cleanup passes the completed output is 1-minimal for every pass. -/
theorem reducer_minimal (c : Config β) (fuel : Nat) (passes : List (Finder β))
    (b : β) (out : Option β) (a : Nat)
    (h : run c fuel passes [] b = some (.complete, out, a)) :
    ∃ o, out = some o ∧ ∀ f ∈ passes, Spec.Minimal c f o := by
  obtain ⟨mid, o, h1, h2, h3, -⟩ := reducer_minimal_partial c fuel passes [] b out a h
  refine ⟨o, h1, ?_⟩
  cases h2 with
  | refl => exact h3
  | step f _ _ _ _ hf => simp at hf

/-! ### The finding: cleanup passes may re-enable main passes -/

/-- Binaries are numbers; the main pass sees an opportunity (to reach 0) only in 1, the
cleanup pass only one in 2, which leads to 1. -/
def exMain : Finder Nat := ⟨fun b => if b = 1 then 1 else 0, fun _ _ _ => 0⟩
def exClean : Finder Nat := ⟨fun b => if b = 2 then 1 else 0, fun _ _ _ => 1⟩
def exCfg : Config Nat := ⟨fun _ => true, fun _ _ => true, 100, false⟩

/-- **C35, negation.** `kComplete` does not imply that no opportunity of a main pass is
left: here the output is 1, where the main pass has a valid and interesting opportunity. -/
theorem reducer_not_minimal_after_cleanup :
    run exCfg 10 [exMain] [exClean] 2 = some (.complete, some 1, 1) ∧
      ¬ Spec.Minimal exCfg exMain 1 := by
  constructor
  · simp [run, runPasses, round, passLoop, tryApply, notify, exCfg, exMain, exClean, PassState.init]
  · intro h
    obtain ⟨k, hk⟩ := h 0 (by simp [exMain]) rfl
    simp [exCfg] at hk

/-! ### A non-trivial run: lists of numbers, removing elements; interesting = contains 3 -/

def exDrop : Finder (List Nat) := ⟨List.length, fun b lo hi => b.take lo ++ b.drop hi⟩
def exCfg2 : Config (List Nat) := ⟨fun b => !b.isEmpty, fun b _ => b.contains 3, 100, false⟩

example : run exCfg2 20 [exDrop] [] [1, 2, 3, 4] = some (.complete, some [3], 6) := by
  simp [run, runPasses, round, passLoop, tryApply, notify, exCfg2, exDrop, PassState.init]

end Verif.Reducer
