import Verif.VectorDce.Effect
import Verif.VectorDce.Total
set_option linter.unusedSimpArgs false
set_option linter.unusedVariables false
/-!
# Two functions: one the pass handles, one with a long vector

Both have one block that jumps to itself: `%2` inserts the scalar `%0` into the vector `%1`; `%3` uses it.
-/
namespace Verif.VectorDce.Example
open Verif.SsaExec Verif.VectorDce Verif.VectorDce.Spec

/-- `%2 = insert %0 %1 2`, `%3 = extract %2 0`, `store %3`. Vectors have four components. -/
def small : Func (Fin 6) Unit where
  entry := ()
  blocks := [()]
  phis _ := []
  body _ := [2, 3, 4, 5]
  ops i := if i = 2 then [0, 1] else if i = 3 then [2] else if i = 4 then [3] else []
  args _ := []
  succs i := if i = 5 then [()] else []
  shape i := if i = 0 ∨ i = 3 then .scalar else if i = 1 ∨ i = 2 then .vec 4 else .other
  kind i := if i = 2 then .insert [2] else if i = 3 then .extract [0] else .plain
  combinator i := i = 2 ∨ i = 3

/-- As `small`, with `%3 = shuffle %2 %1 4 5`. -/
def dead : Func (Fin 6) Unit :=
  { small with
    ops := fun i => if i = 3 then [2, 1] else small.ops i
    shape := fun i => if i = 3 then .vec 2 else small.shape i
    kind := fun i => if i = 3 then .shuffle [4, 5] else small.kind i }

/-- `%2 = insert %0 %1 20`, `store %2`. Vectors have 32 components. -/
def long : Func (Fin 5) Unit where
  entry := ()
  blocks := [()]
  phis _ := []
  body _ := [2, 3, 4]
  ops i := if i = 2 then [0, 1] else if i = 3 then [2] else []
  args _ := []
  succs i := if i = 4 then [()] else []
  shape i := if i = 0 then .scalar else if i = 1 ∨ i = 2 then .vec 32 else .other
  kind i := if i = 2 then .insert [20] else .plain
  combinator i := i = 2

/-- `%0` is 7, `%1` is zero; a store keeps the components of its operand. -/
def base {n : Nat} (store : Fin n) (width : Nat) : Base (Fin n) Unit Nat (Nat → Nat) where
  start i := if i.val = 0 then some fun _ => 7 else if i.val = 1 then some fun _ => 0 else none
  mem := fun _ => 1
  pure _ _ _ _ := 0
  lane _ _ _ := 0
  act i a m _ m' := if i = store then m' = fun k => if k < width then (a.headD fun _ => 0) k else 0 else m' = m
  jump _ _ _ _ := True

theorem fin6 {P : Fin 6 → Prop} (h0 : P 0) (h1 : P 1) (h2 : P 2) (h3 : P 3) (h4 : P 4) (h5 : P 5) : ∀ i, P i := by
  intro i
  match i with
  | 0 => exact h0
  | 1 => exact h1
  | 2 => exact h2
  | 3 => exact h3
  | 4 => exact h4
  | 5 => exact h5

theorem fin5 {P : Fin 5 → Prop} (h0 : P 0) (h1 : P 1) (h2 : P 2) (h3 : P 3) (h4 : P 4) : ∀ i, P i := by
  intro i
  match i with
  | 0 => exact h0
  | 1 => exact h1
  | 2 => exact h2
  | 3 => exact h3
  | 4 => exact h4

theorem small_typed : Typed small := by
  constructor
  · apply fin6 <;> simp [small]
  · apply fin6 <;> simp [small]
  · apply fin6 <;> simp [small]
  · apply fin6 <;> simp [small]
    exact ⟨0, 1, by decide⟩
  · apply fin6 <;> simp [small]
  · apply fin6 <;> simp [small]
  · apply fin6 <;> simp [small]
  · apply fin6 <;> simp [small]
  · simp [small]
  · simp [small]
  · intro b l t h
    have : t = 5 := by
      have := congrArg List.getLast? h
      simp [small] at this
      exact this.symm
    subst this
    simp [small]
  · simp [small]
  · apply fin6 <;> simp [small]

/-- In a body without repetition, what stands before a given instruction. -/
theorem before {l0 l r : List (Fin 6)} {x y} (h : [2, 3, 4, 5] = l ++ x :: y :: r) :
    (x = 2 ∧ y = 3) ∨ (x = 3 ∧ y = 4) ∨ (x = 4 ∧ y = 5) := by
  rcases l with _ | ⟨a, _ | ⟨b, _ | ⟨c, l⟩⟩⟩ <;> simp at h
  · exact .inl ⟨h.1.symm, h.2.1.symm⟩
  · exact .inr (.inl ⟨h.2.1.symm, h.2.2.1.symm⟩)
  · exact .inr (.inr ⟨h.2.2.1.symm, h.2.2.2.1.symm⟩)
  · have := congrArg List.length h.2.2.2
    simp at this
    omega

theorem small_dom {x y : Fin 6} (hxy : (x = 2 ∧ y = 3) ∨ (x = 3 ∧ y = 4)) : Dom small.code x y := by
  intro h ht
  cases ht with
  | first he => simp [Code.all, small, Func.code] at he; omega
  | @next z _ l ht he =>
    rcases he with ⟨b, l', r, he⟩ | ⟨b, l', b', r, he, hs, ha⟩
    · simp only [Code.all, small, Func.code, List.nil_append] at he
      rcases before (l0 := []) he with h | h | h <;> simp <;> omega
    · simp [Code.all, small, Func.code] at ha
      omega

theorem small_term {t} : IsTerm small.code t ↔ t = 5 := by
  constructor
  · rintro ⟨b, l, h⟩
    have := congrArg List.getLast? h
    simp [small, Func.code] at this
    exact this.symm
  · rintro rfl
    exact ⟨(), [2, 3, 4], rfl⟩

theorem small_valid : Valid small.code fun d => (base (n := 6) 4 1).start d ≠ none := by
  constructor
  · simp [small, Func.code]
  · simp [small, Func.code]
  · intro b i hi
    simp [small, Func.code, Code.all] at hi
    rcases hi with rfl | rfl | rfl | rfl <;> (simp [base]; try decide)
  · simp [small, Func.code]
  · intro b i hi d hd
    simp [small, Func.code] at hi
    rcases hi with rfl | rfl | rfl | rfl
    · simp [small, Func.code] at hd
      rcases hd with rfl | rfl <;> simp [base]
    · simp [small, Func.code] at hd
      subst hd
      exact .inr ⟨small_dom (by simp), by simp [small_term]⟩
    · simp [small, Func.code] at hd
      subst hd
      exact .inr ⟨small_dom (by simp), by simp [small_term]⟩
    · simp [small, Func.code] at hd
  · simp [small, Func.code]
  · intro t ht b l r h
    rw [small_term] at ht
    subst ht
    simp only [Code.all, small, Func.code, List.nil_append] at h
    rcases l with _ | ⟨a, _ | ⟨b, _ | ⟨c, _ | ⟨d, l⟩⟩⟩⟩ <;> simp at h
    exact h.2.2.2

theorem small_depends : Depends small (base (n := 6) 4 1) := by
  constructor
  · intro i a a' _
    rfl
  · intro i a a' h
    revert h
    revert i
    apply fin6 <;> intro h <;> simp [base]
    simp [small] at h
    cases h with
    | cons h1 h2 =>
    cases h2
    have := h1 0 (by simp [Has])
    funext m x m'
    simp only [List.head?_cons, Option.getD_some]
    congr 1
    funext k
    split
    · next hk => subst hk; simpa using this
    · rfl
  · intro i a a' _
    rfl

theorem small_run : (small.findLive 10).map (fun live =>
    ((small.after (small.rewrite live)).ops 3, (small.rewrite live).deleted, live 2)) = some ([.id 1], [], some 1) := by
  decide

theorem long_run : (long.findLive 10).map (fun live =>
    ((long.after (long.rewrite live)).ops 2, (long.after (long.rewrite live)).ops 3)) = some ([.id 0, .id 1], [.id 1]) := by
  decide

theorem before5 {l r : List (Fin 5)} {x y} (h : [2, 3, 4] = l ++ x :: y :: r) :
    (x = 2 ∧ y = 3) ∨ (x = 3 ∧ y = 4) := by
  rcases l with _ | ⟨a, _ | ⟨b, l⟩⟩ <;> simp at h
  · exact .inl ⟨h.1.symm, h.2.1.symm⟩
  · exact .inr ⟨h.2.1.symm, h.2.2.1.symm⟩
  · have := congrArg List.length h.2.2
    simp at this
    omega

theorem long_term {t} : IsTerm long.code t ↔ t = 4 := by
  constructor
  · rintro ⟨b, l, h⟩
    have := congrArg List.getLast? h
    simp [long, Func.code] at this
    exact this.symm
  · rintro rfl
    exact ⟨(), [2, 3], rfl⟩

theorem long_dom : Dom long.code 2 3 := by
  intro h ht
  cases ht with
  | first he => simp [Code.all, long, Func.code] at he
  | @next z _ l ht he =>
    rcases he with ⟨b, l', r, he⟩ | ⟨b, l', b', r, he, hs, ha⟩
    · simp only [Code.all, long, Func.code, List.nil_append] at he
      rcases before5 he with h | h <;> simp <;> omega
    · simp [Code.all, long, Func.code] at ha

theorem long_valid : Valid long.code fun d => (base (n := 5) 3 32).start d ≠ none := by
  constructor
  · simp [long, Func.code]
  · simp [long, Func.code]
  · intro b i hi
    simp [long, Func.code, Code.all] at hi
    rcases hi with rfl | rfl | rfl <;> (simp [base]; try decide)
  · simp [long, Func.code]
  · intro b i hi d hd
    simp [long, Func.code] at hi
    rcases hi with rfl | rfl | rfl
    · simp [long, Func.code] at hd
      rcases hd with rfl | rfl <;> simp [base]
    · simp [long, Func.code] at hd
      subst hd
      exact .inr ⟨long_dom, by simp [long_term]⟩
    · simp [long, Func.code] at hd
  · simp [long, Func.code]
  · intro t ht b l r h
    rw [long_term] at ht
    subst ht
    simp only [Code.all, long, Func.code, List.nil_append] at h
    rcases l with _ | ⟨a, _ | ⟨b, _ | ⟨c, l⟩⟩⟩ <;> simp at h
    exact h.2.2

theorem long_depends : Depends long (base (n := 5) 3 32) := by
  constructor
  · intro i a a' _
    rfl
  · intro i a a' h
    revert h
    revert i
    apply fin5 <;> intro h <;> simp [base]
    simp [long] at h
    cases h with
    | cons h1 h2 =>
    cases h2
    funext m x m'
    simp only [List.head?_cons, Option.getD_some]
    congr 1
    funext k
    split
    · next hk => exact h1 k (by simpa [Has] using hk)
    · rfl
  · intro i a a' _
    rfl

/-- Before the pass, component 20 that is stored is never zero. -/
theorem long_before {c} (h : Reach long.code (sem long (base (n := 5) 3 32)) c) :
    c.mem 20 ≠ 0 ∧ c.env 0 = some (fun _ => 7) ∧ (∀ x, c.env 2 = some x → x 20 = 7) ∧
      ∃ pre, [2, 3, 4] = pre ++ c.rest := by
  induction h with
  | start => exact ⟨by simp [Start, sem, base], by simp [Start, sem, base], by simp [Start, sem, base], [], rfl⟩
  | @step c c' h hs ih =>
    obtain ⟨h1, h2, h3, pre, hp⟩ := ih
    cases hs with
    | @act b i j r env m hh a x m' hr hact =>
      simp only at *
      refine ⟨?_, ?_, ?_, pre ++ [i], by simpa using hp⟩
      · rcases before5 hp with ⟨rfl, -⟩ | ⟨rfl, -⟩
        · simp [sem, long] at hact
          rw [hact.1]; exact h1
        · simp [sem, long, base] at hact
          simp [long, Func.code] at hr
          cases hr with
          | cons h4 h5 =>
          cases h5
          simp at hact
          have := h3 _ h4
          simp [hact, this]
      · rcases before5 hp with ⟨rfl, -⟩ | ⟨rfl, -⟩ <;> simpa [define] using h2
      · rcases before5 hp with ⟨rfl, -⟩ | ⟨rfl, -⟩
        · intro y hy
          simp [define] at hy
          subst hy
          simp only [sem] at hact
          rw [if_pos (by simp [long])] at hact
          simp [long, Func.code] at hr
          cases hr with
          | cons h4 h5 =>
          cases h5 with
          | cons h5 h6 =>
          cases h6
          refine hact.2 20 7 ?_
          simp only [Read] at h4
          rw [h2] at h4
          cases h4
          simp [comp, long]
        · simpa [define] using h3
    | @jump b i env m hh a b' env' hr hj hsu hph hot =>
      simp only at *
      exact ⟨h1, by rw [hot 0 (by simp [long, Func.code])]; exact h2,
        by rw [hot 2 (by simp [long, Func.code])]; exact h3, [], rfl⟩

/-- After it, it can be. -/
theorem long_after {Q : Code (Fin 5) Unit} (hb : Q.body () = [2, 3, 4]) (h2 : Q.ops 2 = [.id 0, .id 1])
    (h3 : Q.ops 3 = [.id 1]) : ∃ c, Reach Q (sem long (base (n := 5) 3 32)) c ∧ c.mem 20 = 0 := by
  have s1 : Reach Q (sem long (base (n := 5) 3 32)) ⟨(), [2, 3, 4], (base (n := 5) 3 32).start, fun _ => 1, []⟩ := by
    have := Reach.start (P := Q) (S := sem long (base (n := 5) 3 32))
    simpa [Start, hb, sem, base] using this
  have s2 := Reach.step s1 (Step.act (x := fun k => if k = 20 then 7 else 0) (m' := fun _ => 1)
    (a := [fun _ => 7, fun _ => 0]) (by rw [h2]; exact .cons rfl (.cons rfl .nil)) (by
      simp only [sem]
      rw [if_pos (by simp [long])]
      refine ⟨by trivial, fun k y hy => ?_⟩
      simp [comp, long] at hy
      split at hy <;> simp_all))
  have s3 := Reach.step s2 (Step.act (x := fun _ => 0) (m' := fun _ => 0) (a := [fun _ => 0])
    (by rw [h3]; exact .cons (by simp [Read, define, base]) .nil) (by
      simp [sem, long, base]))
  exact ⟨_, s3, rfl⟩

end Verif.VectorDce.Example
