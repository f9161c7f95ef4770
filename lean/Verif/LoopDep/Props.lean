import Verif.LoopDep.Groups
import Verif.ScalarEvo.Props

/-!
# Which accesses are independent (C60)
-/

namespace Verif.LoopDep

open Verif.ScalarEvo
open Verif.ScalarEvo.Spec (Env eval)
open Verif.LoopDep.Spec

/-- If the analysis says that two accesses are independent, then in no two iterations do they touch
the same memory. Partial: loops count upwards from zero by one and are tested first, subscripts are
linear, pointers are variables or elements of variables, and coupled subscripts depend on one loop
each. Outside this class there are exceptions (`Example.lean`). -/
theorem independent_sound_partial {c : Ctx} {loops : Nat → Loop} (hS : Setting c loops) {o : Sched}
    (ho : Fair o) {src dst : Nat} (hR : Regular c loops src dst) {v v' : List Entry}
    (h : c.getDependence o src dst v = .ok (true, v')) : Independent c loops src dst := by
  intro e1 e2 _ he1 he2 hc
  have := (getDependence_sound hS ho hR h he1 he2 hc).1
  cases this

/-- The distances, directions, points and peeled iterations in the distance vector are right for
all iterations in which the accesses touch the same memory. Partial: as before, and no subscripts
meet halfway between two iterations. -/
theorem distances_true_partial {c : Ctx} {loops : Nat → Loop} (hS : Setting c loops) {o : Sched}
    (ho : Fair o) {src dst : Nat} (hR : Regular c loops src dst) (hn : NoHalfway c src dst)
    {v v' : List Entry} (hv : ∀ x ∈ v, x = {}) {r : Bool}
    (h : c.getDependence o src dst v = .ok (r, v')) {e1 e2 : Env}
    (he1 : Executes c.loops loops e1) (he2 : Executes c.loops loops e2)
    (hc : Conflict c e1 e2 src dst) {i l : Nat} {x : Entry} (hl : c.loops[i]? = some l)
    (hx : v'[i]? = some x) :
    EntryTrue x (e1.iteration l) (e2.iteration l) (c.info l).trips := by
  refine (getDependence_sound hS ho hR h he1 he2 hc).2 hn ?_ i l x hl hx
  intro j l' y _ hy
  rw [hv y (List.mem_of_getElem? hy)]
  exact fresh_true _ _ _

/-- The test by greatest common divisors is right for all expressions and all iterations, inside or
outside the bounds of the loops. -/
theorem gcd_test_sound {s d : Node} (h : gcdTest s d = .ok true) (e1 e2 : Env) :
    eval e1 s ≠ eval e2 d := gcd_sound h e1 e2

/-- The greatest common divisor is computed. -/
theorem greatest_common_divisor (a b : Nat) : stein a b = Nat.gcd a b := stein_gcd a b

/-- All pairs of subscripts are in a group, and nothing else is. -/
theorem groups_cover {c : Ctx} {src dst : List Nat} {gs : List (List (Nat × Nat))}
    (h : c.partition src dst = .ok gs) (p : Nat × Nat) :
    (∃ g ∈ gs, p ∈ g) ↔ p ∈ src.zip dst := by
  unfold Ctx.partition at h
  split at h
  · cases h
  · cases okOk h
    rw [mergeAll_mem]
    constructor
    · rintro ⟨g, hg, hp⟩
      obtain ⟨q, hq, rfl⟩ := List.mem_map.1 hg
      rw [List.mem_singleton.1 hp]; exact hq
    · exact fun hp => ⟨[p], List.mem_map.2 ⟨p, hp, rfl⟩, by simp⟩

/-- No loop occurs in two different groups. -/
theorem groups_separate {c : Ctx} {src dst : List Nat} {gs : List (List (Nat × Nat))}
    (h : c.partition src dst = .ok gs) {l : Nat} (hl : l ∈ c.loops) {i j : Nat}
    {g g' : List (Nat × Nat)} (hi : gs[i]? = some g) (hj : gs[j]? = some g') {p q : Nat × Nat}
    (hp : p ∈ g) (hq : q ∈ g') (hpl : Mentions l (c.node p.1) ∨ Mentions l (c.node p.2))
    (hql : Mentions l (c.node q.1) ∨ Mentions l (c.node q.2)) : i = j := by
  unfold Ctx.partition at h
  split at h
  · cases h
  · cases okOk h
    exact countP_le_one (mergeAll_one _ hl) hi hj
      (groupHas_iff.2 ⟨p, hp, mention_pairLoops hpl⟩) (groupHas_iff.2 ⟨q, hq, mention_pairLoops hql⟩)

/-- In a group of several pairs each of them is coupled with another one. -/
theorem groups_coupled {c : Ctx} {src dst : List Nat} {gs : List (List (Nat × Nat))}
    (h : c.partition src dst = .ok gs) {g : List (Nat × Nat)} (hg : g ∈ gs) {p q : Nat × Nat}
    (hp : p ∈ g) (hq : q ∈ g) (hne : q ≠ p) :
    ∃ q' ∈ g, q' ≠ p ∧ Coupled (c.node p.1, c.node p.2) (c.node q'.1, c.node q'.2) :=
  ((partition_ok h).2 g hg).coupled p hp q hq hne

/-- The delta test goes round at most once more than there are subscripts of several loops: with
any larger bound its result is the same. -/
theorem delta_rounds (c : Ctx) (ks : List Constraint) (ap : List Nat) (siv miv : List (Node × Node))
    (fuel : Nat) (h : miv.length + 2 ≤ fuel) :
    c.deltaLoop fuel ks ap siv miv = c.deltaLoop (miv.length + 2) ks ap siv miv :=
  deltaLoop_rounds _ ks ap siv miv fuel (Nat.le_refl _) h

/-! ## Cases which meet the hypotheses -/

/-- An induction variable. -/
def iv (l : Nat) (i s : Int) : Node := .recur l (.const i) (.const s)

/-- What is looked up about a loop. -/
def infoOf (L : Loop) (l : Nat) (trips : Option Int) : LoopInfo :=
  { cond := some L.rel, lhs := some (.const L.init), rhs := L.limit,
    phis := [iv l L.init L.step], init := some L.init, trips := trips }

/-- Two accesses to elements of the variable 0: the pointers are 1 and 2. -/
def access (loops : List Nat) (info : Nat → LoopInfo) (src dst : List Node) : Ctx :=
  { order := exampleOrder, fuel := 3, loops, info,
    node := fun i => if i < 100 then src.getD i .cant else dst.getD (i - 100) .cant,
    ptr := fun p => if p = 0 then .var else if p = 1 then .chain 0 (List.range src.length)
      else .chain 0 ((List.range dst.length).map (· + 100)) }

/-- Sets are visited in the order in which they were built. -/
def inOrder : Sched := ⟨id, id⟩

theorem inOrder_fair : Fair inOrder := ⟨fun _ => .refl _, fun _ => .refl _⟩

def verdict (c : Ctx) : Except Err (Bool × List Entry) :=
  c.getDependence inOrder 1 2 (List.replicate c.loops.length {})

/-- `for (i = 0; i < 10; i++)`. -/
def ten : Loop := ⟨0, 1, .lt, .const 10, true⟩

theorem ten_runs (e : Env) (t : Int) : ten.runs e t ↔ (0 ≤ t ∧ t < 10) := by
  simp only [Loop.runs, ten, holds, Loop.value, eval, Int.zero_add, Int.one_mul, forall_const]
  constructor
  · rintro ⟨h1, _, h3⟩; exact ⟨h1, h3⟩
  · rintro ⟨h1, h2⟩; exact ⟨h1, fun t' _ _ => by omega, h2⟩

theorem ten_setting (ls : List Nat) (src dst : List Node) :
    Setting (access ls (fun l => infoOf ten l (some 10)) src dst) (fun _ => ten) where
  describes := fun l _ => ⟨rfl, rfl, rfl, rfl, fun i h => by cases h; rfl, fun n h e t => by
    cases h; exact ten_runs e t⟩
  upward := fun l _ => ⟨rfl, rfl, .inl rfl, rfl, .inr trivial⟩

/-- `a[i + 1][2 * j]` and `a[i][2 * j + 1]`. -/
def apart : Ctx :=
  access [0, 1] (fun l => infoOf ten l (some 10))
    [.add [iv 0 0 1, .const 1], .mul (.const 2) (iv 1 0 1)]
    [iv 0 0 1, .add [.mul (.const 2) (iv 1 0 1), .const 1]]

theorem access_flat {ls : List Nat} {info : Nat → LoopInfo} {src dst : List Node} :
    Flat (access ls info src dst) 1 ∧ Flat (access ls info src dst) 2 :=
  ⟨.inr ⟨0, _, rfl, rfl⟩, .inr ⟨0, _, rfl, rfl⟩⟩

/-- The subscripts of accesses, given for the two lists. -/
theorem access_linear {loops : Nat → Loop} {ls : List Nat} {info : Nat → LoopInfo}
    {src dst : List Node} (hs : src.length ≤ 100)
    (h : ∀ n ∈ src ++ dst, Linear loops ls n) {p b : Nat} {subs : List Nat} (hp : p = 1 ∨ p = 2)
    (hb : (access ls info src dst).ptr p = .chain b subs) :
    ∀ i ∈ subs, Linear loops ls ((access ls info src dst).node i) := by
  rcases hp with rfl | rfl
  · cases hb
    intro i hi
    rw [List.mem_range] at hi
    have h100 : i < 100 := by omega
    simp only [access, h100, if_true]
    rw [List.getD_eq_getElem?_getD, List.getElem?_eq_getElem hi]
    exact h _ (List.mem_append.2 (.inl (List.getElem_mem hi)))
  · cases hb
    intro i hi
    obtain ⟨j, hj, rfl⟩ := List.mem_map.1 hi
    rw [List.mem_range] at hj
    have h100 : ¬ j + 100 < 100 := by omega
    simp only [access, h100, if_false, Nat.add_sub_cancel]
    rw [List.getD_eq_getElem?_getD, List.getElem?_eq_getElem hj]
    exact h _ (List.mem_append.2 (.inr (List.getElem_mem hj)))

theorem apart_regular : Regular apart (fun _ => ten) 1 2 where
  flatSrc := access_flat.1
  flatDst := access_flat.2
  linear := fun p b subs hp hb => access_linear (by decide) (by
    intro n hn
    simp only [List.cons_append, List.nil_append, List.mem_cons, List.not_mem_nil, or_false] at hn
    rcases hn with rfl | rfl | rfl | rfl
    · simp [Linear, LinearList, iv, inductionVar, ten, apart, access]
    · simp [Linear, iv, inductionVar, ten, apart, access]
    · simp [Linear, iv, inductionVar, ten, apart, access]
    · simp [Linear, LinearList, iv, inductionVar, ten, apart, access]) hp hb
  coupled := by
    intro b1 b2 s1 s2 h1 h2 p hp q hq hne hcp
    cases h1; cases h2
    have hz : (List.range 2).zip ((List.range 2).map (· + 100)) = [(0, 100), (1, 101)] := by decide
    have hp : p ∈ [(0, 100), (1, 101)] := hz ▸ hp
    have hq : q ∈ [(0, 100), (1, 101)] := hz ▸ hq
    simp only [List.mem_cons, List.not_mem_nil, or_false] at hp hq
    exfalso
    rcases hp with rfl | rfl <;> rcases hq with rfl | rfl
    · exact hne rfl
    · obtain ⟨l, ha, hb⟩ := hcp
      simp [apart, access, Mentions, MentionsList, iv] at ha hb
      omega
    · obtain ⟨l, ha, hb⟩ := hcp
      simp [apart, access, Mentions, MentionsList, iv] at ha hb
      omega
    · exact hne rfl

/-- `a[i + 1][2 * j]` and `a[i][2 * j + 1]` are independent, since `2 * j` is never odd. -/
example : Independent apart (fun _ => ten) 1 2 := by
  have h : verdict apart = .ok (true, [{ info := .distance, dir := .gt, distance := -1 },
    { info := .direction, dir := .none }]) := by decide +kernel
  exact independent_sound_partial (ten_setting _ _ _) inOrder_fair apart_regular h

/-- `a[i][i]` and `a[i + 1][i + 2]`: the first subscripts are equal one iteration apart, the second
ones two iterations apart. -/
def together : Ctx :=
  access [0] (fun l => infoOf ten l (some 10)) [iv 0 0 1, iv 0 0 1]
    [.add [iv 0 0 1, .const 1], .add [iv 0 0 1, .const 2]]

theorem together_regular : Regular together (fun _ => ten) 1 2 where
  flatSrc := access_flat.1
  flatDst := access_flat.2
  linear := fun p b subs hp hb => access_linear (by decide) (by
    intro n hn
    simp only [List.cons_append, List.nil_append, List.mem_cons, List.not_mem_nil, or_false] at hn
    rcases hn with rfl | rfl | rfl | rfl <;>
      simp [Linear, LinearList, iv, inductionVar, ten, together, access]) hp hb
  coupled := by
    intro b1 b2 s1 s2 h1 h2 p hp q hq hne hcp
    cases h1; cases h2
    have hz : (List.range 2).zip ((List.range 2).map (· + 100)) = [(0, 100), (1, 101)] := by decide
    have hp : p ∈ [(0, 100), (1, 101)] := hz ▸ hp
    simp only [List.mem_cons, List.not_mem_nil, or_false] at hp
    rcases hp with rfl | rfl
    · refine ⟨⟨0, ?_, ?_⟩, ?_⟩
      · exact .inl (by decide)
      · intro l' hl'
        have : ¬ 0 = l' := fun h => hl' h.symm
        simp [together, access, iv, growth, eval, ScalarEvo.Spec.evalSum, oneStep, origin, this]
      · rintro ⟨l, h1, h2, _⟩
        by_cases h0 : l = 0
        · subst h0; exact absurd h2 (by decide)
        · have : ¬ 0 = l := fun h => h0 h.symm
          simp [together, access, iv, growth, eval, ScalarEvo.Spec.evalSum, oneStep, origin, this]
            at h1
    · refine ⟨⟨0, ?_, ?_⟩, ?_⟩
      · exact .inl (by decide)
      · intro l' hl'
        have : ¬ 0 = l' := fun h => hl' h.symm
        simp [together, access, iv, growth, eval, ScalarEvo.Spec.evalSum, oneStep, origin, this]
      · rintro ⟨l, h1, h2, _⟩
        by_cases h0 : l = 0
        · subst h0; exact absurd h2 (by decide)
        · have : ¬ 0 = l := fun h => h0 h.symm
          simp [together, access, iv, growth, eval, ScalarEvo.Spec.evalSum, oneStep, origin, this]
            at h1

/-- The delta test finds that they are independent. -/
example : Independent together (fun _ => ten) 1 2 := by
  have h : verdict together = .ok (true, [{}]) := by decide +kernel
  exact independent_sound_partial (ten_setting _ _ _) inOrder_fair together_regular h

/-- `a[i + 3]` and `a[i]`. -/
def shifted : Ctx :=
  access [0] (fun l => infoOf ten l (some 10)) [.add [iv 0 0 1, .const 3]] [iv 0 0 1]

theorem shifted_regular : Regular shifted (fun _ => ten) 1 2 where
  flatSrc := access_flat.1
  flatDst := access_flat.2
  linear := fun p b subs hp hb => access_linear (by decide) (by
    intro n hn
    simp only [List.cons_append, List.nil_append, List.mem_cons, List.not_mem_nil, or_false] at hn
    rcases hn with rfl | rfl <;>
      simp [Linear, LinearList, iv, inductionVar, ten, shifted, access]) hp hb
  coupled := by
    intro b1 b2 s1 s2 h1 h2 p hp q hq hne hcp
    cases h1; cases h2
    have hz : (List.range 1).zip ((List.range 1).map (· + 100)) = [(0, 100)] := by decide
    have hp : p ∈ [(0, 100)] := hz ▸ hp
    have hq : q ∈ [(0, 100)] := hz ▸ hq
    simp only [List.mem_cons, List.not_mem_nil, or_false] at hp hq
    exact (hne (hp.trans hq.symm)).elim

theorem shifted_noHalfway : NoHalfway shifted 1 2 := by
  intro b1 b2 s1 s2 h1 h2 p hp
  cases h1; cases h2
  have hz : (List.range 1).zip ((List.range 1).map (· + 100)) = [(0, 100)] := by decide
  have hp : p ∈ [(0, 100)] := hz ▸ hp
  simp only [List.mem_cons, List.not_mem_nil, or_false] at hp
  subst hp
  rintro ⟨l, h1, h2, _⟩
  by_cases h0 : l = 0
  · subst h0; exact absurd h2 (by decide)
  · have : ¬ 0 = l := fun h => h0 h.symm
    simp [shifted, access, iv, growth, eval, ScalarEvo.Spec.evalSum, oneStep, origin, this] at h1

/-- Whenever `a[i + 3]` in one iteration is `a[i]` in another one, the first one is three iterations
before the second one, and this does happen. -/
example : (∀ e1 e2 : Env, Executes [0] (fun _ => ten) e1 → Executes [0] (fun _ => ten) e2 →
      Conflict shifted e1 e2 1 2 → e1.iteration 0 - e2.iteration 0 = -3) ∧
    Conflict shifted ⟨fun _ => 0, fun _ => 2, 0⟩ ⟨fun _ => 0, fun _ => 5, 0⟩ 1 2 := by
  have h : verdict shifted = .ok (false, [{ info := .distance, dir := .gt, distance := -3 }]) := by
    decide +kernel
  refine ⟨fun e1 e2 he1 he2 hc => ?_, 0, [5], [5], ?_, ?_, .inl (List.prefix_refl _)⟩
  · exact (distances_true_partial (ten_setting _ _ _) inOrder_fair shifted_regular
      shifted_noHalfway (by simp) h he1 he2 hc (i := 0) (l := 0) rfl rfl).distance rfl
  · exact Locates.chain (c := shifted) (p := 1) (b := 0) (path := []) rfl (.var rfl)
  · exact Locates.chain (c := shifted) (p := 2) (b := 0) (path := []) rfl (.var rfl)

/-- `2 * i + 4 * j` and `6 * k + 3` with other loops are never equal. -/
example : gcdTest (.add [iv 0 0 2, iv 1 0 4]) (.recur 2 (.const 3) (.const 6)) = .ok true := by
  decide +kernel

end Verif.LoopDep
