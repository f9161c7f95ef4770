import Verif.Robust.Total

/-!
# Properties of the robust access pass

`Fits c e is` says that the module with the pointer instructions `is` is valid and that `e` is an
execution of it: see `Spec.lean`.
-/

namespace Verif.Robust

open Spec

/-- **C61.** After the pass every pointer points into its variable, in every execution: each index of
each access chain is defined and in bounds.

Partial: `Fits` leaves out constants of 8 and 16 bit unsigned types which are negative if they are
treated as signed (see `narrow_wrong`), and empty runtime arrays (see `empty_wrong`). -/
theorem pointers_in_bounds_partial {c e fuel is out} (f : Fits c e is)
    (h : c.run fuel is = .ok out) :
    ∃ loc, exec c e start out = some loc ∧ ∀ p, InBounds c e (loc p) := by
  obtain ⟨loc, _, h1, _, h2, _⟩ := run_sound f h
  exact ⟨loc, h1, h2⟩

/-- **C61.** A pointer which pointed into its variable before the pass points to the same memory after
it, whatever other pointers do. -/
theorem in_bounds_unchanged_partial {c e fuel is out} (f : Fits c e is)
    (h : c.run fuel is = .ok out) :
    ∃ before after, exec c e start is = some before ∧ exec c e start out = some after ∧
      ∀ p, InBounds c e (before p) → after p = before p := by
  obtain ⟨loc, locO, h1, h2, _, h3, _⟩ := run_sound f h
  exact ⟨locO, loc, h2, h1, h3⟩

/-- **C61.** Pointers still point to values of their types. -/
theorem pointee_kept {c e fuel is out} (f : Fits c e is) (h : c.run fuel is = .ok out) :
    ∃ loc, exec c e start out = some loc ∧
      ∀ p, typeAt (c.pointee (loc p).root) (loc p).path = some (c.pointee p) := by
  obtain ⟨loc, _, h1, _, _, _, h2⟩ := run_sound f h
  exact ⟨loc, h1, h2⟩

/-- **C61.** The pass does not fail if there is no null constant among the indices and lengths.

Partial: with `OpConstantNull` it does not report a failure but uses a null pointer: see
`null_wrong`. -/
theorem pass_succeeds_partial {c e fuel is} (f : Fits c e is) (s : Supported c e is)
    (hf : is.length + 1 < fuel) : ∃ out, c.run fuel is = .ok out :=
  run_total f s hf

/-- What the pass leaves alone: the pointer, how it is made, from what pointer and with how many
indices. -/
def PInst.shape (i : PInst) : Nat × Option (Nat × Option Nat) :=
  (i.id, match i.defn with
    | .chain base idx => some (base, some idx.length)
    | .copy src => some (src, none)
    | .other => none)

theorem clampFrom_length {c : Ctx} {defs fuel base} : ∀ (todo : List Ix) (t : Ty) (done out : List Ix),
    c.clampFrom defs fuel base t done todo = .ok out → out.length = done.length + todo.length
  | [], t, done, out, h => by simp [Ctx.clampFrom] at h; simp [h]
  | x :: rest, t, done, out, h => by
    have key : ∀ t i, c.clampFrom defs fuel base t (done ++ [i]) rest = .ok out →
        out.length = done.length + (x :: rest).length := fun t i h' => by
      have := clampFrom_length rest t _ out h'
      simp at this ⊢; omega
    cases x with
    | id n =>
      cases t with
      | scalar => simp [Ctx.clampFrom] at h
      | fixed count elem =>
        simp only [Ctx.clampFrom, bind, Except.bind] at h
        split at h
        · cases h
        · exact key _ _ h
      | array len elem =>
        simp only [Ctx.clampFrom, bind, Except.bind] at h
        split at h
        · cases h
        · exact key _ _ h
      | runtime elem =>
        simp only [Ctx.clampFrom, bind, Except.bind] at h
        split at h
        · cases h
        · exact key _ _ h
      | struct ts =>
        simp only [Ctx.clampFrom] at h
        split at h
        · split at h
          · cases h
          · split at h
            · exact key _ _ h
            · cases h
        · cases h
    | lit _ _ => simp [Ctx.clampFrom] at h
    | convert _ _ _ => simp [Ctx.clampFrom] at h
    | sub _ _ => simp [Ctx.clampFrom] at h
    | umin _ _ => simp [Ctx.clampFrom] at h
    | sclamp _ _ _ => simp [Ctx.clampFrom] at h
    | length _ _ _ => simp [Ctx.clampFrom] at h

/-- **C61.** No pointer is added, removed or based on another pointer, for any module. -/
theorem shape_kept {c : Ctx} {fuel is out} (h : c.run fuel is = .ok out) :
    out.map PInst.shape = is.map PInst.shape := by
  unfold Ctx.run at h
  generalize defsOf is = defs at h
  induction is generalizing defs out with
  | nil => simp [Ctx.process] at h; simp [h]
  | cons i rest ih =>
    obtain ⟨id, d⟩ := i
    cases d with
    | chain base idx =>
      simp only [Ctx.process, bind, Except.bind] at h
      split at h
      · cases h
      · rename_i idx' hc
        split at h
        · cases h
        · rename_i rest' hp
          simp only [pure, Except.pure, Except.ok.injEq] at h
          subst h
          have := clampFrom_length _ _ _ _ hc
          simp [ih _ hp, PInst.shape]
          simpa using this
    | copy src =>
      simp only [Ctx.process, bind, Except.bind] at h
      split at h
      · cases h
      · rename_i rest' hp
        simp only [pure, Except.pure, Except.ok.injEq] at h
        subst h
        simp [ih _ hp]
    | other =>
      simp only [Ctx.process, bind, Except.bind] at h
      split at h
      · cases h
      · rename_i rest' hp
        simp only [pure, Except.pure, Except.ok.injEq] at h
        subst h
        simp [ih _ hp]

end Verif.Robust
