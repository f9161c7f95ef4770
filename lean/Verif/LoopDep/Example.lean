import Verif.LoopDep.Props

/-!
# Where the dependence analysis is wrong (C60)

Accesses which the analysis declares independent although they touch the same memory, distance
vectors which are wrong, and uses of null pointers.
-/

namespace Verif.LoopDep

open Verif.ScalarEvo
open Verif.ScalarEvo.Spec (Env eval)
open Verif.LoopDep.Spec

/-- Two iterations with the same subscripts. -/
theorem conflict_of {c : Ctx} {b : Nat} {s1 s2 : List Nat} (h1 : c.ptr 1 = .chain b s1)
    (h2 : c.ptr 2 = .chain b s2) (hb : c.ptr b = .var) {e1 e2 : Env}
    (heq : s1.map (fun i => eval e1 (c.node i)) = s2.map fun i => eval e2 (c.node i)) :
    Conflict c e1 e2 1 2 :=
  ⟨b, _, _, .chain h1 (.var hb), .chain h2 (.var hb), .inl (by rw [heq]; exact List.prefix_refl _)⟩

/-- Two iterations in which the accesses touch the same memory. -/
theorem dependent_of {c : Ctx} {loops : Nat → Loop} {src dst : Nat} (e1 e2 : Env)
    (hu : e1.unknown = e2.unknown) (he1 : Executes c.loops loops e1)
    (he2 : Executes c.loops loops e2) (hc : Conflict c e1 e2 src dst) :
    ¬ Independent c loops src dst := fun h => h e1 e2 hu he1 he2 hc

/-- The iteration `t` of all loops, with `n` for unknown values. -/
def at_ (n t : Int) : Env := ⟨fun _ => n, fun _ => t, 0⟩

theorem ten_executes {ls : List Nat} {n t : Int} (h0 : 0 ≤ t) (h : t < 10) :
    Executes ls (fun _ => ten) (at_ n t) := fun l _ => (ten_runs _ _).2 ⟨h0, h⟩

/-- Accesses in loops from 0 to 9. -/
def tens (ls : List Nat) (src dst : List Node) : Ctx :=
  access ls (fun l => infoOf ten l (some 10)) src dst

/-! ## Unknown values -/

/-- `a[n]` and `a[m]`: two different unknown values are taken to be different numbers. -/
def unknowns : Ctx := tens [0] [.unknown 1] [.unknown 2]

theorem unknowns_wrong : verdict unknowns = .ok (true, [{ info := .irrelevant }]) ∧
    ¬ Independent unknowns (fun _ => ten) 1 2 :=
  ⟨by decide +kernel, dependent_of (at_ 3 0) (at_ 3 0) rfl (ten_executes (by decide) (by decide))
    (ten_executes (by decide) (by decide)) (conflict_of rfl rfl rfl (by decide))⟩

/-- `a[n - i]` and itself. -/
def downwards : Ctx :=
  tens [0] [.add [.unknown 1, .neg (iv 0 0 1)]] [.add [.unknown 1, .neg (iv 0 0 1)]]

theorem downwards_wrong : (verdict downwards).toOption.map (·.1) = some true ∧
    ¬ Independent downwards (fun _ => ten) 1 2 :=
  ⟨by decide +kernel, dependent_of (at_ 3 0) (at_ 3 0) rfl (ten_executes (by decide) (by decide))
    (ten_executes (by decide) (by decide)) (conflict_of rfl rfl rfl (by decide))⟩

/-! ## Coupled subscripts -/

/-- `a[i][i - i + 5]` and itself: a constant subscript of a coupled group becomes zero on one side
when a constraint is propagated into it. -/
def cancelled : Ctx :=
  tens [0] [iv 0 0 1, .add [iv 0 0 1, .neg (iv 0 0 1), .const 5]]
    [iv 0 0 1, .add [iv 0 0 1, .neg (iv 0 0 1), .const 5]]

theorem cancelled_wrong : verdict cancelled = .ok (true, [{}]) ∧
    ¬ Independent cancelled (fun _ => ten) 1 2 :=
  ⟨by decide +kernel, dependent_of (at_ 0 0) (at_ 0 0) rfl (ten_executes (by decide) (by decide))
    (ten_executes (by decide) (by decide)) (conflict_of rfl rfl rfl (by decide))⟩

/-- `a[i + 1][i + j][j]` and `a[i][i + j][j + 1]`: a distance is propagated with the wrong sign. -/
def signs : Ctx :=
  tens [0, 1] [.add [iv 0 0 1, .const 1], .add [iv 0 0 1, iv 1 0 1], iv 1 0 1]
    [iv 0 0 1, .add [iv 0 0 1, iv 1 0 1], .add [iv 1 0 1, .const 1]]

/-- The vector says that the accesses meet only in iteration 1 of `j` for the source and 0 for the
destination; but they meet in iterations 5 and 4 too. -/
theorem signs_wrong : verdict signs = .ok (false, [{ info := .distance, dir := .gt, distance := -1 },
      { info := .point, pointX := 0, pointY := 1 }]) ∧
    ∃ e1 e2 : Env, Executes [0, 1] (fun _ => ten) e1 ∧ Executes [0, 1] (fun _ => ten) e2 ∧
      Conflict signs e1 e2 1 2 ∧
      ¬ EntryTrue { info := .point, pointX := 0, pointY := 1 } (e1.iteration 1) (e2.iteration 1)
        (some 10) := by
  refine ⟨by decide +kernel, ⟨fun _ => 0, fun l => if l = 0 then 1 else 5, 0⟩,
    ⟨fun _ => 0, fun l => if l = 0 then 2 else 4, 0⟩, ?_, ?_, conflict_of rfl rfl rfl (by decide), ?_⟩
  · intro l _
    refine (ten_runs _ _).2 ?_
    simp only; split <;> decide
  · intro l _
    refine (ten_runs _ _).2 ?_
    simp only; split <;> decide
  · intro h
    have := (h.point rfl).1
    exact absurd this (by decide)

/-! ## Loops which do not count from zero by one -/

/-- A loop with constant bounds. -/
def counted (init step limit : Int) (rel : Rel) (first : Bool) : Loop :=
  ⟨init, step, rel, .const limit, first⟩

/-- `for (i = -5; i < 0; i++)`: `a[i + 10]` and `a[5]` meet in the first iteration. -/
def negative : Ctx :=
  access [0] (fun l => infoOf (counted (-5) 1 0 .lt true) l (some 5))
    [.add [iv 0 (-5) 1, .const 10]] [.const 5]

theorem negative_wrong : (verdict negative).toOption.map (·.1) = some true ∧
    ¬ Independent negative (fun _ => counted (-5) 1 0 .lt true) 1 2 := by
  have he : Executes [0] (fun _ => counted (-5) 1 0 .lt true) (at_ 0 0) := by
    intro l _
    simp only [Loop.runs, counted, holds, Loop.value, eval, at_]
    exact ⟨by omega, fun t' _ _ => by omega, fun _ => by omega⟩
  exact ⟨by decide +kernel, dependent_of (at_ 0 0) (at_ 0 0) rfl he he
    (conflict_of rfl rfl rfl (by decide))⟩

/-- `for (i = 5; i <= 9; i++)`: `a[i][7]` and `a[7][i]` meet for `i = 7`. -/
def fromFive : Ctx :=
  access [0] (fun l => infoOf (counted 5 1 9 .le true) l (some 5))
    [iv 0 5 1, .const 7] [.const 7, iv 0 5 1]

theorem fromFive_wrong : (verdict fromFive).toOption.map (·.1) = some true ∧
    ¬ Independent fromFive (fun _ => counted 5 1 9 .le true) 1 2 := by
  have he : Executes [0] (fun _ => counted 5 1 9 .le true) (at_ 0 2) := by
    intro l _
    simp only [Loop.runs, counted, holds, Loop.value, eval, at_]
    exact ⟨by omega, fun t' _ _ => by omega, fun _ => by omega⟩
  exact ⟨by decide +kernel, dependent_of (at_ 0 2) (at_ 0 2) rfl he he
    (conflict_of rfl rfl rfl (by decide))⟩

/-- `i = 0; do { ... } while (i++ < 9);`: the body runs for `i = 9`, and `a[i]` meets `a[i + 9]`. -/
def bottom : Ctx :=
  access [0] (fun l => infoOf (counted 0 1 9 .lt false) l (some 10))
    [iv 0 0 1] [.add [iv 0 0 1, .const 9]]

theorem bottom_wrong : (verdict bottom).toOption.map (·.1) = some true ∧
    ¬ Independent bottom (fun _ => counted 0 1 9 .lt false) 1 2 := by
  have he : ∀ t, 0 ≤ t → t < 10 → Executes [0] (fun _ => counted 0 1 9 .lt false) (at_ 0 t) := by
    intro t h0 h1 l _
    simp only [Loop.runs, counted, holds, Loop.value, eval, at_]
    exact ⟨h0, fun t' _ _ => by omega, fun h => by cases h⟩
  exact ⟨by decide +kernel, dependent_of (at_ 0 9) (at_ 0 0) rfl (he 9 (by decide) (by decide))
    (he 0 (by decide) (by decide)) (conflict_of rfl rfl rfl (by decide))⟩

/-- `for (i = 0; i <= 8; i++)`: `a[2 * i + n + 10]` and `a[2 * i + n]`. With an unknown value the
difference of the subscripts is compared with the number of iterations, without regard to the
coefficient. -/
def stretched : Ctx :=
  access [0] (fun l => infoOf (counted 0 1 8 .le true) l (some 9))
    [.add [.mul (.const 2) (iv 0 0 1), .unknown 1, .const 10]]
    [.add [.mul (.const 2) (iv 0 0 1), .unknown 1]]

theorem stretched_wrong : (verdict stretched).toOption.map (·.1) = some true ∧
    ¬ Independent stretched (fun _ => counted 0 1 8 .le true) 1 2 := by
  have he : ∀ t, 0 ≤ t → t ≤ 8 → Executes [0] (fun _ => counted 0 1 8 .le true) (at_ 0 t) := by
    intro t h0 h1 l _
    simp only [Loop.runs, counted, holds, Loop.value, eval, at_]
    exact ⟨h0, fun t' _ _ => by omega, fun _ => by omega⟩
  exact ⟨by decide +kernel, dependent_of (at_ 0 0) (at_ 0 5) rfl (he 0 (by decide) (by decide))
    (he 5 (by decide) (by decide)) (conflict_of rfl rfl rfl (by decide))⟩

/-! ## Pointers -/

/-- The same element through `OpInBoundsAccessChain` and through `OpAccessChain`. -/
def kinds : Ctx :=
  { tens [0] [.const 1] [.const 1] with
    ptr := fun p => if p = 0 then .var else if p = 1 then .inBounds 0 [0] else .chain 0 [100] }

theorem kinds_wrong : verdict kinds = .ok (true, [{ info := .irrelevant }]) ∧
    ¬ Independent kinds (fun _ => ten) 1 2 :=
  ⟨by decide +kernel, dependent_of (at_ 0 0) (at_ 0 0) rfl (ten_executes (by decide) (by decide))
    (ten_executes (by decide) (by decide))
    ⟨0, [1], [1], Locates.inBounds (c := kinds) (p := 1) (b := 0) (path := []) rfl (.var rfl),
      Locates.chain (c := kinds) (p := 2) (b := 0) (path := []) rfl (.var rfl),
      .inl (List.prefix_refl _)⟩⟩

/-- An element of an element of a variable, and the whole variable. -/
def nested : Ctx :=
  { tens [0] [.const 1] [.const 1] with
    ptr := fun p => if p = 1 then .chain 3 [0] else if p = 3 then .chain 2 [0] else .var }

theorem nested_wrong : verdict nested = .ok (true, [{ info := .irrelevant }]) ∧
    ¬ Independent nested (fun _ => ten) 1 2 :=
  ⟨by decide +kernel, dependent_of (at_ 0 0) (at_ 0 0) rfl (ten_executes (by decide) (by decide))
    (ten_executes (by decide) (by decide))
    ⟨2, [1, 1], [], Locates.chain (c := nested) (p := 1) (b := 3) (path := [1]) rfl
      (Locates.chain (c := nested) (p := 3) (b := 2) (path := []) rfl (.var rfl)), .var rfl,
      .inr (List.nil_prefix ..)⟩⟩

/-! ## Subscripts which meet halfway -/

/-- `a[i]` and `a[1 - i]`. -/
def halfway : Ctx := tens [0] [iv 0 0 1] [.add [.const 1, .neg (iv 0 0 1)]]

/-- The vector says that they meet in the same iteration only; but they meet in iterations 0
and 1. -/
theorem halfway_wrong : verdict halfway = .ok (false, [{ info := .distance, dir := .eq }]) ∧
    ∃ e1 e2 : Env, Executes [0] (fun _ => ten) e1 ∧ Executes [0] (fun _ => ten) e2 ∧
      Conflict halfway e1 e2 1 2 ∧
      ¬ EntryTrue { info := .distance, dir := .eq } (e1.iteration 0) (e2.iteration 0) (some 10) :=
  ⟨by decide +kernel, at_ 0 0, at_ 0 1, ten_executes (by decide) (by decide),
    ten_executes (by decide) (by decide), conflict_of rfl rfl rfl (by decide),
    fun h => absurd (h.eq rfl) (by decide)⟩

/-! ## Null pointers -/

/-- `a[i][i][i]` and `a[i][i + 1][i + 2]`: three distances in one group. -/
theorem three_distances_null :
    verdict (tens [0] [iv 0 0 1, iv 0 0 1, iv 0 0 1]
      [iv 0 0 1, .add [iv 0 0 1, .const 1], .add [iv 0 0 1, .const 2]]) = .error .null := by
  decide +kernel

/-- `for (i = 0; i < n; i++)`, whose number of iterations is not known: `a[i]` and `a[3]`. -/
theorem unknown_trips_null :
    verdict (access [0] (fun l => infoOf ⟨0, 1, .lt, .unknown 5, true⟩ l none)
      [iv 0 0 1] [.const 3]) = .error .null := by
  decide +kernel

end Verif.LoopDep
