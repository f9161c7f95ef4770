import Verif.SingleStore.Effect
set_option linter.unusedSimpArgs false
set_option linter.unusedVariables false
/-!
# Two functions: one the pass handles, one in which an address is stored
-/
namespace Verif.SingleStore.Example
open Verif.SsaExec Verif.SingleStore Verif.SingleStore.Spec

theorem fin12 {P : Fin 12 → Prop} (h0 : P 0) (h1 : P 1) (h2 : P 2) (h3 : P 3) (h4 : P 4) (h5 : P 5) (h6 : P 6) (h7 : P 7)
    (h8 : P 8) (h9 : P 9) (h10 : P 10) (h11 : P 11) : ∀ i, P i := by
  intro i
  match i with
  | 0 => exact h0
  | 1 => exact h1
  | 2 => exact h2
  | 3 => exact h3
  | 4 => exact h4
  | 5 => exact h5
  | 6 => exact h6
  | 7 => exact h7
  | 8 => exact h8
  | 9 => exact h9
  | 10 => exact h10
  | 11 => exact h11

/-- The first block: the variable `%0`, the variable `%1` initialized by the constant `%8`, a copy `%2` of `%0`, a
store `%3` of the constant `%9` through it. The second, which may jump to itself: `%5` loads `%0` and `%6` uses that;
`%7` loads `%1` and `%10` uses that. -/
def good : Func (Fin 12) Bool where
  entry := false
  blocks := [false, true]
  phis _ := []
  body b := if b then [5, 6, 7, 10, 11] else [0, 1, 2, 3, 4]
  kind i := match i with
    | 0 => .variable
    | 1 => .variable
    | 2 => .copy
    | 3 => .store
    | 5 => .load
    | 7 => .load
    | _ => .other
  ops i := match i with
    | 1 => [8]
    | 2 => [0]
    | 3 => [2, 9]
    | 5 => [0]
    | 6 => [5]
    | 7 => [1]
    | 10 => [7]
    | _ => []
  args _ := []
  succs i := if i = 4 ∨ i = 11 then [true] else []
  dom a b := (a = 3 ∧ b = 5) ∨ (a = 1 ∧ b = 7)

/-- A number, or a pointer to a variable or to its last digit. -/
inductive Val where
  | num (n : Nat)
  | ptr (v : Fin 12) (whole : Bool)

/-- Uses write to the rest of memory. -/
def goodBase : Base (Fin 12) Bool Val Val where
  start i := if i = 8 then some (.num 23) else if i = 9 then some (.num 42) else none
  vars i := if i = 1 then .num 23 else .num 0
  rest := .num 0
  addr i := .ptr i true
  points
    | .ptr v _ => some v
    | _ => none
  get
    | .ptr _ false, .num c => .num (c % 10)
    | _, c => c
  put
    | .ptr _ false, .num c, .num x => .num (c / 10 * 10 + x % 10)
    | .ptr _ false, c, _ => c
    | _, _, x => x
  chain _ a x := ∃ v b l, a = .ptr v b :: l ∧ x = .ptr v false
  outLoad _ _ r x := x = r
  outStore _ a _ r' := ∃ y w, a = [y, w] ∧ r' = w
  texel _ _ _ _ := False
  hidden i := i = 0 ∨ i = 1
  act i a m x m' := x = .num 0 ∧ m' = (m.1, a.headD m.2)
  jump _ _ _ _ := True

theorem good_pointers : Pointers goodBase :=
  ⟨fun _ => rfl, fun _ _ => rfl, fun _ _ _ => rfl⟩

theorem good_initial : Initial good goodBase := by
  intro v w hk ho
  revert hk ho
  revert v
  apply fin12 <;> simp [good, goodBase]
  rintro rfl
  simp

theorem good_direct {k p v} (h : Direct good k p v) :
    (k = 0 ∧ p = 0 ∧ v = 0) ∨ (k = 0 ∧ p = 1 ∧ v = 1) ∨ (k = 1 ∧ p = 2 ∧ v = 0) := by
  induction h with
  | @here v h =>
    revert v
    apply fin12 <;> simp [good]
  | @chain k p q r v h1 h2 h3 ih =>
    revert q
    apply fin12 <;> simp [good]
  | @copy k p q v h1 h2 h3 ih =>
    have : q = 2 := by
      revert q
      apply fin12 <;> simp [good]
    subst this
    simp [good] at h2
    subst h2
    simp at ih
    simp [ih]

theorem good_wellFormed : WellFormed good 5 := by
  constructor
  · simp [good]
  · decide
  · simp [good]
  · simp [good]
  · intro b l t h
    have h1 := congrArg List.getLast? h
    cases b
    · simp [good] at h1
      subst h1
      rfl
    · simp [good] at h1
      subst h1
      rfl
  · apply fin12 <;> simp [good]
  · apply fin12 <;> simp [good]
  · apply fin12 <;> simp [good]
  · apply fin12 <;> simp [good]
  · apply fin12 <;> simp [good]
  · intro i _ d h
    rcases h with h | ⟨b, h⟩
    · revert h; revert d; revert i
      decide
    · simp [good] at h
  · decide
  · intro k p v h
    have := good_direct h
    omega

theorem good_unique : Unique good.code := by
  intro y b l r b' l' r' h h'
  exact flatMap_unique (f := good.code.all) [false, true] (by decide) b (by cases b <;> simp) b' (by cases b' <;> simp) y l r l' r' h h'

theorem good_term {t} (h : IsTerm good.code t) : t = 4 ∨ t = 11 := by
  obtain ⟨b, l, h⟩ := h
  have := congrArg List.getLast? h
  cases b
  · simp [good, Func.code] at this
    exact .inl this.symm
  · simp [good, Func.code] at this
    exact .inr this.symm

/-- The first block comes before the second. -/
theorem good_first {d : Fin 12} (hd : d = 4 ∨ Dom good.code d 4) {l} (ht : Trail good.code l) :
    ∀ u h, l = u :: h → u ∈ good.body true → d ∈ h := by
  induction ht with
  | first he =>
    intro u h hl hu
    cases hl
    simp [Code.all, good, Func.code] at he
    obtain ⟨rfl, -⟩ := he
    simp [good] at hu
  | @next z y l ht he ih =>
    intro u h hl hu
    cases hl
    rcases he with ⟨b, l', r, he⟩ | ⟨b, l', b', r, he, hs, ha⟩
    · have hb : b = true := by
        cases b with
        | true => rfl
        | false =>
          have hm : y ∈ good.code.all false := by rw [he]; simp
          simp [Code.all, good, Func.code] at hm hu
          omega
      subst hb
      have := ih z l rfl (by
        have : z ∈ good.code.all true := by rw [he]; simp
        simpa [Code.all, good, Func.code] using this)
      simp [this]
    · have hz : z = 4 ∨ z = 11 := by
        by_cases h3 : z = 4 ∨ z = 11
        · exact h3
        · simp [good, Func.code, h3] at hs
      rcases hz with rfl | rfl
      · rcases hd with rfl | hd
        · simp
        · simp [hd l ht]
      · have := ih 11 l rfl (by simp [good])
        simp [this]

theorem good_dom {d u : Fin 12} (hd : d = 4 ∨ Dom good.code d 4) (hu : u ∈ good.body true) : Dom good.code d u :=
  fun h ht => good_first hd ht u h rfl hu

theorem good_domSound : DomSound good := by
  intro a b h
  right
  simp only [good, decide_eq_true_eq] at h
  rcases h with ⟨rfl, rfl⟩ | ⟨rfl, rfl⟩
  · exact good_dom (.inr (before_dom good_unique (b := false) [] [0, 1, 2] rfl)) (by simp [good])
  · exact good_dom (.inr (before_dom good_unique (b := false) [2, 3] [0] rfl)) (by simp [good])

theorem good_valid : Valid good.code fun d => goodBase.start d ≠ none := by
  have nt : ∀ t : Fin 12, t ≠ 4 → t ≠ 11 → ¬ IsTerm good.code t := fun t h1 h2 h => by
    rcases good_term h with h | h <;> contradiction
  constructor
  · intro b; cases b <;> simp [good, Func.code]
  · simp [good, Func.code]
  · intro b i hi
    cases b
    · simp [good, Func.code, Code.all] at hi
      rcases hi with rfl | rfl | rfl | rfl | rfl <;> simp [goodBase]
    · simp [good, Func.code, Code.all] at hi
      rcases hi with rfl | rfl | rfl | rfl | rfl <;> simp [goodBase]
  · simp [good, Func.code]
  · intro b i hi d hd
    cases b
    · simp [good, Func.code] at hi
      rcases hi with rfl | rfl | rfl | rfl | rfl <;> simp [good, Func.code] at hd
      · subst hd
        exact .inl (by simp [goodBase])
      · subst hd
        exact .inr ⟨before_dom good_unique (b := false) [1] [] rfl, nt _ (by decide) (by decide)⟩
      · rcases hd with rfl | rfl
        · exact .inr ⟨before_dom good_unique (b := false) [] [0, 1] rfl, nt _ (by decide) (by decide)⟩
        · exact .inl (by simp [goodBase])
    · simp [good, Func.code] at hi
      rcases hi with rfl | rfl | rfl | rfl | rfl <;> simp [good, Func.code] at hd
      · subst hd
        exact .inr ⟨good_dom (.inr (before_dom good_unique (b := false) [1, 2, 3] [] rfl)) (by simp [good]), nt _ (by decide) (by decide)⟩
      · subst hd
        exact .inr ⟨before_dom good_unique (b := true) [] [] rfl, nt _ (by decide) (by decide)⟩
      · subst hd
        exact .inr ⟨good_dom (.inr (before_dom good_unique (b := false) [2, 3] [0] rfl)) (by simp [good]), nt _ (by decide) (by decide)⟩
      · subst hd
        exact .inr ⟨before_dom good_unique (b := true) [] [5, 6] rfl, nt _ (by decide) (by decide)⟩
  · simp [good, Func.code]
  · intro t ht b l r h
    rcases good_term ht with rfl | rfl
    · obtain ⟨rfl, rfl⟩ := good_unique 4 false [0, 1, 2, 3] [] b l r rfl h
      simpa [Code.all, good, Func.code] using h.symm
    · obtain ⟨rfl, rfl⟩ := good_unique 11 true [5, 6, 7, 10] [] b l r rfl h
      simpa [Code.all, good, Func.code] using h.symm

theorem good_private (v : Fin 12) : Private good v := by
  intro k p h u hu hp
  rcases hp with hp | ⟨b, hp⟩
  · rcases good_direct h with ⟨-, rfl, -⟩ | ⟨-, rfl, -⟩ | ⟨-, rfl, -⟩ <;> (revert hp hu; revert u; apply fin12 <;> simp [good])
  · simp [good] at hp

theorem good_not_stored : ∀ i ∈ good.insts, good.kind i = .store → ∀ p w, good.ops i = [p, w] → ∀ k v, ¬ Direct good k w v := by
  intro i hi hk p w ho k v hd
  have := good_direct hd
  revert hk ho hi
  revert i
  apply fin12 <;> simp [good] <;> omega

/-- Neither variable can be reached. -/
def goodClean (y : Val) : Prop := ∀ b, y ≠ .ptr 0 b ∧ y ≠ .ptr 1 b

theorem num_clean (n : Nat) : goodClean (.num n) := by simp [goodClean]

theorem good_addressing : Addressing good goodBase goodClean goodClean := by
  constructor
  · exact good_not_stored
  · intro v h _
    revert h
    revert v
    apply fin12 <;> simp [good, goodBase]
  · intro v _
    exact good_private v
  · intro y v hy h
    cases y with
    | num n => cases h
    | ptr u b =>
      cases h
      have h0 : v ≠ 0 := by rintro rfl; exact (hy b).1 rfl
      have h1 : v ≠ 1 := by rintro rfl; exact (hy b).2 rfl
      simp [goodBase, h0, h1]
  · intro v h b
    simp [goodBase] at h ⊢
    exact ⟨fun e => absurd e h.1, fun e => absurd e h.2⟩
  · intro d y h
    simp only [goodBase] at h
    split at h
    · cases h; exact num_clean _
    · split at h
      · cases h; exact num_clean _
      · cases h
  · intro v
    simp only [goodBase]
    split <;> exact num_clean _
  · exact num_clean _
  · intro p c hc
    simp only [goodBase]
    split
    · exact num_clean _
    · exact hc
  · intro p c x hc hx
    simp only [goodBase]
    split
    · exact num_clean _
    · exact hc
    · exact hx
  · intro i y ys x h hy b
    obtain ⟨v, b', l, h1, rfl⟩ := h
    cases h1
    have h0 : v ≠ 0 := by rintro rfl; exact (hy b').1 rfl
    have h1 : v ≠ 1 := by rintro rfl; exact (hy b').2 rfl
    simp [h0, h1]
  · intro i a r x h hr
    cases h
    exact hr
  · intro i p w r r' h hw hr
    obtain ⟨y, w', h1, rfl⟩ := h
    cases h1
    exact hw
  · intro i a m x h
    cases h
  · intro i a m x m' h ha hm hr
    obtain ⟨rfl, rfl⟩ := h
    refine ⟨num_clean _, fun v _ => hm v, ?_⟩
    cases a with
    | nil => exact hr
    | cons y a => exact ha y (by simp)

theorem good_single : Single good 0 3 9 where
  var := rfl
  priv := good_private 0
  only := by
    intro k p u w hd hu hk ho
    have : u = 3 := by
      revert hk ho hu
      revert u
      apply fin12 <;> simp [good]
    subst this
    exact ⟨rfl, rfl⟩
  what := .inl ⟨rfl, rfl, by decide, 2, 1, rfl, .copy rfl rfl (.here rfl)⟩

theorem good_plain : Plain good 0 where
  index := by
    intro u k p hu
    revert hu
    revert u
    apply fin12 <;> simp [good]
  debug := by
    intro u k p _ hu
    revert hu
    revert u
    apply fin12 <;> simp [good]

/-- One block. The address of the variable `%0` is stored to the variable `%1` (`%2`), loaded (`%6`), and the
constant `%8` is stored through it (`%7`). `%3` loads `%0` and `%4` uses that. -/
def bad : Func (Fin 12) Unit where
  entry := ()
  blocks := [()]
  phis _ := []
  body _ := [0, 1, 2, 6, 7, 3, 4, 5]
  kind i := match i with
    | 0 => .variable
    | 1 => .variable
    | 2 => .store
    | 6 => .load
    | 7 => .store
    | 3 => .load
    | _ => .other
  ops i := match i with
    | 2 => [1, 0]
    | 6 => [1]
    | 7 => [6, 8]
    | 3 => [0]
    | 4 => [3]
    | _ => []
  args _ := []
  succs _ := []
  dom a b := a = 2 ∧ (b = 6 ∨ b = 3)

def badBase : Base (Fin 12) Unit Val Val :=
  { goodBase with vars := fun _ => .num 0, jump := fun _ _ _ _ => True, hidden := fun _ => false, }

theorem bad_pointers : Pointers badBase :=
  ⟨fun _ => rfl, fun _ _ => rfl, fun _ _ _ => rfl⟩

theorem bad_direct {k p v} (h : Direct bad k p v) : k = 0 := by
  induction h with
  | here => rfl
  | @chain k p q r v h1 h2 h3 ih =>
    revert h1
    revert q
    apply fin12 <;> simp [bad]
  | @copy k p q v h1 h2 h3 ih =>
    revert h1
    revert q
    apply fin12 <;> simp [bad]

theorem bad_wellFormed : WellFormed bad 5 := by
  constructor
  · simp [bad]
  · decide
  · simp [bad]
  · simp [bad]
  · intro b l t h
    have h1 := congrArg List.getLast? h
    simp [bad] at h1
    subst h1
    rfl
  · apply fin12 <;> simp [bad]
  · apply fin12 <;> simp [bad]
  · apply fin12 <;> simp [bad]
  · apply fin12 <;> simp [bad]
  · apply fin12 <;> simp [bad]
  · intro i _ d h
    rcases h with h | ⟨b, h⟩
    · revert h; revert d; revert i
      decide
    · simp [bad] at h
  · decide
  · intro k p v h
    have := bad_direct h
    omega

theorem bad_initial : Initial bad badBase := by
  intro v w hk ho
  revert hk ho
  revert v
  apply fin12 <;> simp [bad]

theorem bad_unique : Unique bad.code := by
  intro y b l r b' l' r' h h'
  exact flatMap_unique (f := bad.code.all) [()] (by decide) () (by simp) () (by simp) y l r l' r' h h'

theorem bad_domSound : DomSound bad := by
  intro a b h
  right
  simp only [bad, decide_eq_true_eq] at h
  rcases h with ⟨rfl, rfl | rfl⟩
  · exact before_dom bad_unique (b := ()) [] [0, 1] rfl
  · exact before_dom bad_unique (b := ()) [6, 7] [0, 1] rfl

theorem bad_term {t} (h : IsTerm bad.code t) : t = 5 := by
  obtain ⟨b, l, h⟩ := h
  have := congrArg List.getLast? h
  simp [bad, Func.code] at this
  exact this.symm

theorem bad_valid : Valid bad.code fun d => badBase.start d ≠ none := by
  have nt : ∀ t : Fin 12, t ≠ 5 → ¬ IsTerm bad.code t := fun t h1 h => h1 (bad_term h)
  constructor
  · simp [bad, Func.code]
  · simp [bad, Func.code]
  · intro b i hi
    simp [bad, Func.code, Code.all] at hi
    rcases hi with rfl | rfl | rfl | rfl | rfl | rfl | rfl | rfl <;> simp [badBase, goodBase]
  · simp [bad, Func.code]
  · intro b i hi d hd
    simp [bad, Func.code] at hi
    rcases hi with rfl | rfl | rfl | rfl | rfl | rfl | rfl | rfl <;> simp [bad, Func.code] at hd
    · rcases hd with rfl | rfl
      · exact .inr ⟨before_dom bad_unique (b := ()) [] [0] rfl, nt _ (by decide)⟩
      · exact .inr ⟨before_dom bad_unique (b := ()) [1] [] rfl, nt _ (by decide)⟩
    · subst hd
      exact .inr ⟨before_dom bad_unique (b := ()) [2] [0] rfl, nt _ (by decide)⟩
    · rcases hd with rfl | rfl
      · exact .inr ⟨before_dom bad_unique (b := ()) [] [0, 1, 2] rfl, nt _ (by decide)⟩
      · exact .inl (by simp [badBase, goodBase])
    · subst hd
      exact .inr ⟨before_dom bad_unique (b := ()) [1, 2, 6, 7] [] rfl, nt _ (by decide)⟩
    · subst hd
      exact .inr ⟨before_dom bad_unique (b := ()) [] [0, 1, 2, 6, 7] rfl, nt _ (by decide)⟩
  · simp [bad, Func.code]
  · intro t ht b l r h
    have := bad_term ht
    subst this
    obtain ⟨-, rfl⟩ := bad_unique 5 () [0, 1, 2, 6, 7, 3, 4] [] b l r rfl h
    simpa [Code.all, bad, Func.code] using h.symm

theorem bad_single : bad.single ⟨id, []⟩ 5 0 = some 2 ∧ (bad.run 5).sub 3 = 0 := by decide

structure BadInv (c : Config (Fin 12) Unit Val (Mem (Fin 12) Val Val)) : Prop where
  out : c.mem.2 ≠ .ptr 0 true
  e0 : ∀ x, c.env 0 = some x → x = .ptr 0 true
  e1 : ∀ x, c.env 1 = some x → x = .ptr 1 true
  e6 : ∀ x, c.env 6 = some x → x = .ptr 0 true
  e3 : ∀ x, c.env 3 = some x → x = .num 23
  e8 : c.env 8 = some (.num 23)
  rest : c.rest = [0, 1, 2, 6, 7, 3, 4, 5] ∨ c.rest = [1, 2, 6, 7, 3, 4, 5] ∨ c.rest = [2, 6, 7, 3, 4, 5] ∨
    (c.mem.1 1 = .ptr 0 true ∧ c.rest = [6, 7, 3, 4, 5]) ∨ c.rest = [7, 3, 4, 5] ∨
    (c.rest = [3, 4, 5] ∧ c.mem.1 0 = .num 23) ∨ c.rest = [4, 5] ∨ c.rest = [5]

set_option maxHeartbeats 2000000 in
/-- Before the pass the address is never used as a number. -/
theorem bad_before {c} (h : Reach bad.code (sem bad badBase) c) : BadInv c := by
  induction h with
  | start => constructor <;> simp [Start, sem, badBase, goodBase, bad, Func.code]
  | @step c c' h hs ih =>
    obtain ⟨h1, h2, h3, h4, h5, h6, h7⟩ := ih
    cases hs with
    | @jump b i env m hh a b' env' hr hj hsu hph hot =>
      simp [bad, Func.code] at hsu
    | @act b i j r env m hh a x m' hr hact =>
      simp only at *
      simp only [List.cons.injEq, reduceCtorEq, and_false, false_and, false_or, or_false] at h7
      rcases h7 with ⟨rfl, rfl, rfl⟩ | ⟨rfl, rfl, rfl⟩ | ⟨rfl, rfl, rfl⟩ | ⟨hm, ⟨rfl, rfl, rfl⟩⟩ | ⟨rfl, rfl, rfl⟩ |
        ⟨⟨rfl, rfl, rfl⟩, hm0⟩ | ⟨rfl, rfl, rfl⟩
      · simp [sem, act, bad, badBase, goodBase] at hact
        obtain ⟨rfl, rfl⟩ := hact
        constructor <;> simp_all [define]
      · simp [sem, act, bad, badBase, goodBase] at hact
        obtain ⟨rfl, rfl⟩ := hact
        constructor <;> simp_all [define]
      · simp [bad, Func.code] at hr
        cases hr with
        | cons hr1 hr =>
        cases hr with
        | cons hr2 hr =>
        cases hr
        cases h3 _ hr1
        cases h2 _ hr2
        simp [sem, act, bad, badBase, goodBase] at hact
        subst hact
        constructor <;> simp_all [define, write]
      · simp [bad, Func.code] at hr
        cases hr with
        | cons hr1 hr =>
        cases hr
        cases h3 _ hr1
        simp [sem, act, bad, badBase, goodBase] at hact
        obtain ⟨rfl, rfl⟩ := hact
        constructor <;> simp_all [define, write]
      · simp [bad, Func.code] at hr
        cases hr with
        | cons hr1 hr =>
        cases hr with
        | cons hr2 hr =>
        cases hr
        cases h4 _ hr1
        simp only [Read] at hr2
        rw [h6] at hr2
        cases hr2
        simp [sem, act, bad, badBase, goodBase] at hact
        subst hact
        constructor <;> simp_all [define, write]
      · simp [bad, Func.code] at hr
        cases hr with
        | cons hr1 hr =>
        cases hr
        cases h2 _ hr1
        simp [sem, act, bad, badBase, goodBase] at hact
        obtain ⟨rfl, rfl⟩ := hact
        constructor <;> simp_all [define, write]
      · simp [bad, Func.code] at hr
        cases hr with
        | cons hr1 hr =>
        cases hr
        cases h5 _ hr1
        simp [sem, act, bad, badBase, goodBase] at hact
        obtain ⟨rfl, rfl⟩ := hact
        constructor <;> simp_all [define, write]

/-- After the pass it is. -/
theorem bad_after : ∃ c, Reach (bad.after 5) (sem bad badBase) c ∧ c.mem.2 = .ptr 0 true := by
  have o2 : (bad.after 5).ops 2 = [.id 1, .id 0] := by decide
  have o7 : (bad.after 5).ops 7 = [.id 0, .id 8] := by decide
  have o4 : (bad.after 5).ops 4 = [.id 0] := by decide
  have b0 : (bad.after 5).body () = [0, 1, 2, 7, 4, 5] := by decide
  have s0 : Reach (bad.after 5) (sem bad badBase) ⟨(), [0, 1, 2, 7, 4, 5], badBase.start, (fun _ => .num 0, .num 0), []⟩ := by
    have := Reach.start (P := bad.after 5) (S := sem bad badBase)
    simpa [Start, b0, sem, badBase, goodBase] using this
  have s1 := Reach.step s0 (Step.act (a := []) (x := .ptr 0 true) (m' := (fun _ => .num 0, .num 0)) .nil
    (by simp [sem, act, bad, badBase, goodBase]))
  have s2 := Reach.step s1 (Step.act (a := []) (x := .ptr 1 true) (m' := (fun _ => .num 0, .num 0)) .nil
    (by simp [sem, act, bad, badBase, goodBase]))
  have s3 := Reach.step s2 (Step.act (a := [.ptr 1 true, .ptr 0 true]) (x := .num 0)
    (m' := (write (fun _ => .num 0) 1 (.ptr 0 true), .num 0))
    (by rw [o2]; exact .cons (by simp [Read, define]) (.cons (by simp [Read, define]) .nil))
    (by simp [sem, act, bad, badBase, goodBase]))
  have s4 := Reach.step s3 (Step.act (a := [.ptr 0 true, .num 23]) (x := .num 0)
    (m' := (write (write (fun _ => .num 0) 1 (.ptr 0 true)) 0 (.num 23), .num 0))
    (by rw [o7]; exact .cons (by simp [Read, define]) (.cons (by simp [Read, define, badBase, goodBase]) .nil))
    (by simp [sem, act, bad, badBase, goodBase]))
  have s5 := Reach.step s4 (Step.act (a := [.ptr 0 true]) (x := .num 0)
    (m' := (write (write (fun _ => .num 0) 1 (.ptr 0 true)) 0 (.num 23), .ptr 0 true))
    (by rw [o4]; exact .cons (by simp [Read, define]) .nil)
    (by simp [sem, act, bad, badBase, goodBase]))
  exact ⟨_, s5, rfl⟩

end Verif.SingleStore.Example
