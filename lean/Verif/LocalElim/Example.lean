import Verif.LocalElim.Escape
set_option linter.unusedSimpArgs false
set_option linter.unusedVariables false
/-!
# Two functions: one the pass handles, one in which an address is stored
-/
namespace Verif.LocalElim.Example
open Verif.SsaExec Verif.LocalElim Verif.LocalElim.Spec

theorem fin12 {P : Fin 12 → Prop} (h0 : P 0) (h1 : P 1) (h2 : P 2) (h3 : P 3) (h4 : P 4) (h5 : P 5) (h6 : P 6) (h7 : P 7)
    (h8 : P 8) (h9 : P 9) (h10 : P 10) (h11 : P 11) : ∀ i, P i := by
  intro i
  match i with
  | 0 => exact h0
  | 1 => exact h1
  | 2 => exact h2
  | 3 => exact h3
  | 4 => exact h4
  | 5 => exact h5
  | 6 => exact h6
  | 7 => exact h7
  | 8 => exact h8
  | 9 => exact h9
  | 10 => exact h10
  | 11 => exact h11

/-- One block that jumps to itself. `%0` is a variable; `%1` stores the constant `%8` to it, `%2` loads it
and `%3` uses that; `%4` stores the constant `%9`; `%5` points to a part of the variable, `%6` loads the
part and `%7` uses it; `%10` stores `%2`. -/
def good : Func (Fin 12) Unit where
  entry := ()
  blocks := [()]
  phis _ := []
  body _ := [0, 1, 2, 3, 4, 5, 6, 7, 10, 11]
  kind i := match i with
    | 0 => .variable
    | 1 => .store
    | 2 => .load
    | 4 => .store
    | 5 => .chain
    | 6 => .load
    | 10 => .store
    | _ => .other
  ops i := match i with
    | 1 => [0, 8]
    | 2 => [0]
    | 3 => [2]
    | 4 => [0, 9]
    | 5 => [0]
    | 6 => [5]
    | 7 => [6]
    | 10 => [0, 2]
    | _ => []
  args _ := []
  succs i := if i = 11 then [()] else []
  target i := i = 0
  declared _ := false

/-- A number, or a pointer to a variable or to its last digit. -/
inductive Val where
  | num (n : Nat)
  | ptr (v : Fin 12) (whole : Bool)

/-- Uses write to the rest of memory. -/
def goodBase : Base (Fin 12) Unit Val Val where
  start i := if i = 8 then some (.num 23) else if i = 9 then some (.num 42) else none
  vars _ := .num 0
  rest := .num 0
  addr i := .ptr i true
  points
    | .ptr v _ => some v
    | _ => none
  get
    | .ptr _ false, .num c => .num (c % 10)
    | _, c => c
  put
    | .ptr _ false, .num c, .num x => .num (c / 10 * 10 + x % 10)
    | .ptr _ false, c, _ => c
    | _, _, x => x
  chain _ a x := ∃ v b l, a = .ptr v b :: l ∧ x = .ptr v false
  outLoad _ _ r x := x = r
  outStore _ a _ r' := ∃ y w, a = [y, w] ∧ r' = w
  hidden i := i = 0
  act i a _ r x o r' := x = .num 0 ∧ r' = a.headD r ∧ o = fun _ => .num 0
  jump _ _ _ _ := True

theorem good_pointers : Pointers goodBase :=
  ⟨fun _ => rfl, fun _ _ => rfl, fun _ _ _ => rfl⟩

theorem good_direct {k p v} (h : Direct good k p v) : v = 0 ∧ ((k = 0 ∧ p = 0) ∨ (k = 1 ∧ p = 5)) := by
  induction h with
  | @here v h =>
    revert v
    apply fin12 <;> simp [good]
  | @chain k p q r v h1 h2 h3 ih =>
    have : q = 5 := by
      revert q
      apply fin12 <;> simp [good]
    subst this
    simp [good] at h2
    obtain ⟨rfl, rfl⟩ := h2
    simp at ih
    simp [ih]
  | @copy k p q v h1 h2 h3 ih =>
    revert q
    apply fin12 <;> simp [good]

theorem good_wellFormed : WellFormed good 5 := by
  constructor
  · simp [good]
  · decide
  · simp [good]
  · intro b l t h
    have : t = 11 := by
      have := congrArg List.getLast? h
      simp [good] at this
      exact this.symm
    subst this
    rfl
  · apply fin12 <;> simp [good]
  · apply fin12 <;> simp [good]
  · apply fin12 <;> simp [good]
  · apply fin12 <;> simp [good]
  · intro i _ d h
    rcases h with h | ⟨b, h⟩
    · revert h; revert d; revert i
      decide
    · simp [good] at h
  · intro i _ d h
    rcases h with h | ⟨b, h⟩
    · revert h; revert d; revert i
      decide
    · simp [good] at h
  · decide
  · intro k p v h
    have := (good_direct h).2
    omega

theorem good_term {t} : IsTerm good.code t ↔ t = 11 := by
  constructor
  · rintro ⟨b, l, h⟩
    have := congrArg List.getLast? h
    simp [good, Func.code] at this
    exact this.symm
  · rintro rfl
    exact ⟨(), [0, 1, 2, 3, 4, 5, 6, 7, 10], rfl⟩

theorem good_unique : Unique good.code := by
  intro y b l r b' l' r' h h'
  exact flatMap_unique (f := good.code.all) [()] (by decide) () (by simp) () (by simp) y l r l' r' h h'

theorem good_valid : Valid good.code fun d => goodBase.start d ≠ none := by
  constructor
  · simp [good, Func.code]
  · simp [good, Func.code]
  · intro b i hi
    simp [good, Func.code, Code.all] at hi
    rcases hi with rfl | rfl | rfl | rfl | rfl | rfl | rfl | rfl | rfl | rfl <;> simp [goodBase]
  · simp [good, Func.code]
  · intro b i hi d hd
    simp [good, Func.code] at hi
    rcases hi with rfl | rfl | rfl | rfl | rfl | rfl | rfl | rfl | rfl | rfl <;> simp [good, Func.code] at hd
    · rcases hd with rfl | rfl
      · exact .inr ⟨before_dom good_unique (b := ()) [] [] rfl, by simp [good_term]⟩
      · exact .inl (by simp [goodBase])
    · subst hd
      exact .inr ⟨before_dom good_unique (b := ()) [1] [] rfl, by simp [good_term]⟩
    · subst hd
      exact .inr ⟨before_dom good_unique (b := ()) [] [0, 1] rfl, by simp [good_term]⟩
    · rcases hd with rfl | rfl
      · exact .inr ⟨before_dom good_unique (b := ()) [1, 2, 3] [] rfl, by simp [good_term]⟩
      · exact .inl (by simp [goodBase])
    · subst hd
      exact .inr ⟨before_dom good_unique (b := ()) [1, 2, 3, 4] [] rfl, by simp [good_term]⟩
    · subst hd
      exact .inr ⟨before_dom good_unique (b := ()) [] [0, 1, 2, 3, 4] rfl, by simp [good_term]⟩
    · subst hd
      exact .inr ⟨before_dom good_unique (b := ()) [] [0, 1, 2, 3, 4, 5] rfl, by simp [good_term]⟩
    · rcases hd with rfl | rfl
      · exact .inr ⟨before_dom good_unique (b := ()) [1, 2, 3, 4, 5, 6, 7] [] rfl, by simp [good_term]⟩
      · exact .inr ⟨before_dom good_unique (b := ()) [3, 4, 5, 6, 7] [0, 1] rfl, by simp [good_term]⟩
  · simp [good, Func.code]
  · intro t ht b l r h
    rw [good_term] at ht
    subst ht
    have := good_unique 11 () [0, 1, 2, 3, 4, 5, 6, 7, 10] [] () l r rfl h
    rw [← this.2] at h
    simpa [Code.all, good, Func.code] using h.symm

theorem good_private : Private good 0 := by
  intro k p h u hu hp
  rcases (good_direct h).2 with ⟨-, rfl⟩ | ⟨-, rfl⟩
  · rcases hp with hp | ⟨b, hp⟩
    · revert hp hu
      revert u
      apply fin12 <;> simp [good]
    · simp [good] at hp
  · rcases hp with hp | ⟨b, hp⟩
    · revert hp hu
      revert u
      apply fin12 <;> simp [good]
    · simp [good] at hp

theorem good_addressing : Addressing good goodBase (fun y => ∀ b, y ≠ .ptr 0 b) (fun y => ∀ b, y ≠ .ptr 0 b) := by
  constructor
  · intro i hi hk p w ho k v hd
    have := (good_direct hd).2
    revert hk ho hi
    revert i
    apply fin12 <;> simp [good] <;> omega
  · intro v h _
    simpa [good, goodBase] using h
  · intro v h
    have : v = 0 := by simpa [goodBase] using h
    subst this
    exact good_private
  · intro y v hy h
    cases y with
    | num n => cases h
    | ptr u b =>
      cases h
      have : v ≠ 0 := by rintro rfl; exact hy b rfl
      simpa [goodBase] using this
  · intro v h b
    simp [goodBase] at h ⊢
    exact fun hv => absurd hv h
  · intro d y h b
    simp only [goodBase] at h
    split at h
    · cases h; simp
    · split at h
      · cases h; simp
      · cases h
  · intro v b; simp [goodBase]
  · intro b; simp [goodBase]
  · intro p c hc b
    simp only [goodBase]
    split
    · simp
    · exact hc b
  · intro p c x hc hx b
    simp only [goodBase]
    split
    · simp
    · exact hc b
    · exact hx b
  · intro i y ys x h hy b
    obtain ⟨v, b', l, h1, rfl⟩ := h
    cases h1
    have : v ≠ 0 := by rintro rfl; exact hy b' rfl
    simp [this]
  · intro i a r x h hr
    cases h
    exact hr
  · intro i p w r r' h hw hr
    obtain ⟨y, w', h1, rfl⟩ := h
    cases h1
    exact hw
  · intro i a seen r x o r' h ha _ hr
    obtain ⟨rfl, rfl, rfl⟩ := h
    refine ⟨by simp, by simp, ?_⟩
    cases a with
    | nil => exact hr
    | cons y a => exact ha y (by simp)

/-- The load `%2` is replaced by `%8`; it and the store `%1` go. The store `%4` stays, since a part is read. -/
theorem good_removed : (List.range 12).filter (fun i => good.removed 5 (Fin.ofNat 12 i)) = [1, 2] ∧
    (good.run 5).sub 2 = 8 := by
  decide

/-- The blocks: the first stores the address of the variable `%0` to the variable `%1`. The second stores `%9` to
`%0`, loads the address (`%5`), stores `%8` through it, loads `%0` (`%7`) and uses that (`%10`). -/
def bad : Func (Fin 12) Bool where
  entry := false
  blocks := [false, true]
  phis _ := []
  body b := if b then [4, 5, 6, 7, 10, 11] else [0, 1, 2, 3]
  kind i := match i with
    | 0 => .variable
    | 1 => .variable
    | 2 => .store
    | 4 => .store
    | 5 => .load
    | 6 => .store
    | 7 => .load
    | _ => .other
  ops i := match i with
    | 2 => [1, 0]
    | 4 => [0, 9]
    | 5 => [1]
    | 6 => [5, 8]
    | 7 => [0]
    | 10 => [7]
    | _ => []
  args _ := []
  succs i := if i = 3 then [true] else []
  target i := i = 0 ∨ i = 1
  declared _ := false

def badBase : Base (Fin 12) Bool Val Val :=
  { goodBase with jump := fun _ _ _ _ => True, hidden := fun _ => false,
                  act := fun i a s r x o r' => x = .num 0 ∧ r' = (if i = 10 then a.headD r else r) ∧ ∀ v, s v = some (o v) }

theorem bad_removed : (bad.run 5).sub 7 = 9 ∧ bad.supported 5 0 = true := by decide

theorem bad_pointers : Pointers badBase :=
  ⟨fun _ => rfl, fun _ _ => rfl, fun _ _ _ => rfl⟩

theorem bad_direct {k p v} (h : Direct bad k p v) : k = 0 := by
  induction h with
  | here => rfl
  | @chain k p q r v h1 h2 h3 ih =>
    revert h1
    revert q
    apply fin12 <;> simp [bad]
  | @copy k p q v h1 h2 h3 ih =>
    revert h1
    revert q
    apply fin12 <;> simp [bad]

theorem bad_wellFormed : WellFormed bad 5 := by
  constructor
  · simp [bad]
  · decide
  · simp [bad]
  · intro b l t h
    have h1 := congrArg List.getLast? h
    cases b
    · simp [bad] at h1
      subst h1
      rfl
    · simp [bad] at h1
      subst h1
      rfl
  · apply fin12 <;> simp [bad]
  · apply fin12 <;> simp [bad]
  · apply fin12 <;> simp [bad]
  · apply fin12 <;> simp [bad]
  · intro i _ d h
    rcases h with h | ⟨b, h⟩
    · revert h; revert d; revert i
      decide
    · simp [bad] at h
  · intro i _ d h
    rcases h with h | ⟨b, h⟩
    · revert h; revert d; revert i
      decide
    · simp [bad] at h
  · decide
  · intro k p v h
    have := bad_direct h
    omega

theorem bad_unique : Unique bad.code := by
  intro y b l r b' l' r' h h'
  exact flatMap_unique (f := bad.code.all) [false, true] (by decide) b (by cases b <;> simp) b' (by cases b' <;> simp) y l r l' r' h h'

theorem bad_term {t} (h : IsTerm bad.code t) : t = 3 ∨ t = 11 := by
  obtain ⟨b, l, h⟩ := h
  have := congrArg List.getLast? h
  cases b
  · simp [bad, Func.code] at this
    exact .inl this.symm
  · simp [bad, Func.code] at this
    exact .inr this.symm

/-- The first block comes before the second. -/
theorem bad_first {d : Fin 12} (hd : d = 3 ∨ Dom bad.code d 3) : Dom bad.code d 4 := by
  intro h ht
  cases ht with
  | first he => simp [Code.all, bad, Func.code] at he
  | @next z _ l ht he =>
    have hz : z = 3 := by
      rcases he with ⟨b, l', r, he⟩ | ⟨b, l', b', r, he, hs, ha⟩
      · have := bad_unique 4 b (l' ++ [z]) r true [] _ (by simpa using he) rfl
        simp at this
      · by_cases h3 : z = 3
        · exact h3
        · simp [bad, Func.code, h3] at hs
    subst hz
    rcases hd with rfl | hd
    · simp
    · simp [hd l ht]

theorem bad_valid : Valid bad.code fun d => badBase.start d ≠ none := by
  have d04 : Dom bad.code 0 4 := bad_first (.inr (before_dom bad_unique (b := false) [1, 2] [] rfl))
  have d14 : Dom bad.code 1 4 := bad_first (.inr (before_dom bad_unique (b := false) [2] [0] rfl))
  have nt : ∀ t : Fin 12, t ≠ 3 → t ≠ 11 → ¬ IsTerm bad.code t := fun t h1 h2 h => by
    rcases bad_term h with h | h <;> contradiction
  constructor
  · intro b; cases b <;> simp [bad, Func.code]
  · simp [bad, Func.code]
  · intro b i hi
    cases b
    · simp [bad, Func.code, Code.all] at hi
      rcases hi with rfl | rfl | rfl | rfl <;> simp [badBase, goodBase]
    · simp [bad, Func.code, Code.all] at hi
      rcases hi with rfl | rfl | rfl | rfl | rfl | rfl <;> simp [badBase, goodBase]
  · simp [bad, Func.code]
  · intro b i hi d hd
    cases b
    · simp [bad, Func.code] at hi
      rcases hi with rfl | rfl | rfl | rfl <;> simp [bad, Func.code] at hd
      rcases hd with rfl | rfl
      · exact .inr ⟨before_dom bad_unique (b := false) [] [0] rfl, nt _ (by decide) (by decide)⟩
      · exact .inr ⟨before_dom bad_unique (b := false) [1] [] rfl, nt _ (by decide) (by decide)⟩
    · simp [bad, Func.code] at hi
      rcases hi with rfl | rfl | rfl | rfl | rfl | rfl <;> simp [bad, Func.code] at hd
      · rcases hd with rfl | rfl
        · exact .inr ⟨d04, nt _ (by decide) (by decide)⟩
        · exact .inl (by simp [badBase, goodBase])
      · subst hd
        exact .inr ⟨Dom.trans d14 (before_dom bad_unique (b := true) [] [] rfl), nt _ (by decide) (by decide)⟩
      · rcases hd with rfl | rfl
        · exact .inr ⟨before_dom bad_unique (b := true) [] [4] rfl, nt _ (by decide) (by decide)⟩
        · exact .inl (by simp [badBase, goodBase])
      · subst hd
        exact .inr ⟨Dom.trans d04 (before_dom bad_unique (b := true) [5, 6] [] rfl), nt _ (by decide) (by decide)⟩
      · subst hd
        exact .inr ⟨before_dom bad_unique (b := true) [] [4, 5, 6] rfl, nt _ (by decide) (by decide)⟩
  · simp [bad, Func.code]
  · intro t ht b l r h
    rcases bad_term ht with rfl | rfl
    · obtain ⟨rfl, rfl⟩ := bad_unique 3 false [0, 1, 2] [] b l r rfl h
      simpa [Code.all, bad, Func.code] using h.symm
    · obtain ⟨rfl, rfl⟩ := bad_unique 11 true [4, 5, 6, 7, 10] [] b l r rfl h
      simpa [Code.all, bad, Func.code] using h.symm

structure BadInv (c : Config (Fin 12) Bool Val (Mem (Fin 12) Val Val)) : Prop where
  out : c.mem.2 ≠ .num 42
  e0 : ∀ x, c.env 0 = some x → x = .ptr 0 true
  e1 : ∀ x, c.env 1 = some x → x = .ptr 1 true
  e5 : ∀ x, c.env 5 = some x → x = .ptr 0 true
  e7 : ∀ x, c.env 7 = some x → x = .num 23
  e8 : c.env 8 = some (.num 23)
  rest : c.rest = [0, 1, 2, 3] ∨ c.rest = [1, 2, 3] ∨ c.rest = [2, 3] ∨
    (c.mem.1 1 = .ptr 0 true ∧ (c.rest = [3] ∨ c.rest = [4, 5, 6, 7, 10, 11] ∨ c.rest = [5, 6, 7, 10, 11] ∨
      c.rest = [6, 7, 10, 11] ∨ (c.rest = [7, 10, 11] ∧ c.mem.1 0 = .num 23) ∨ c.rest = [10, 11] ∨ c.rest = [11]))

set_option maxHeartbeats 2000000 in
/-- Before the pass 42 is never used. -/
theorem bad_before {c} (h : Reach bad.code (sem bad badBase) c) : BadInv c := by
  induction h with
  | start => constructor <;> simp [Start, sem, badBase, goodBase, bad, Func.code]
  | @step c c' h hs ih =>
    obtain ⟨h1, h2, h3, h4, h5, h6, h7⟩ := ih
    cases hs with
    | @jump b i env m hh a b' env' hr hj hsu hph hot =>
      have hi : i = 3 := by
        by_cases h3 : i = 3
        · exact h3
        · simp [bad, Func.code, h3] at hsu
      subst hi
      have hb : b' = true := by simpa [bad, Func.code] using hsu
      subst hb
      have he : env' = env := by
        funext d
        exact hot d (by simp [bad, Func.code])
      subst he
      simp only at *
      simp at h7
      exact ⟨h1, h2, h3, h4, h5, h6, by simp [h7, bad, Func.code]⟩
    | @act b i j r env m hh a x m' hr hact =>
      simp only at *
      simp only [List.cons.injEq, reduceCtorEq, and_false, false_and, false_or, or_false] at h7
      rcases h7 with ⟨rfl, rfl, rfl⟩ | ⟨rfl, rfl, rfl⟩ | ⟨rfl, rfl, rfl⟩ | ⟨hm, ⟨rfl, rfl, rfl⟩ | ⟨rfl, rfl, rfl⟩ |
        ⟨rfl, rfl, rfl⟩ | ⟨⟨rfl, rfl, rfl⟩, hm0⟩ | ⟨rfl, rfl, rfl⟩⟩
      · simp [sem, act, bad, badBase, goodBase] at hact
        obtain ⟨rfl, rfl⟩ := hact
        constructor <;> simp_all [define]
      · simp [sem, act, bad, badBase, goodBase] at hact
        obtain ⟨rfl, rfl⟩ := hact
        constructor <;> simp_all [define]
      · simp [bad, Func.code] at hr
        cases hr with
        | cons hr1 hr =>
        cases hr with
        | cons hr2 hr =>
        cases hr
        cases h3 _ hr1
        cases h2 _ hr2
        simp [sem, act, bad, badBase, goodBase] at hact
        subst hact
        constructor <;> simp_all [define, write]
      · simp [bad, Func.code] at hr
        cases hr with
        | cons hr1 hr =>
        cases hr with
        | cons hr2 hr =>
        cases hr
        cases h2 _ hr1
        simp [sem, act, bad, badBase, goodBase] at hact
        subst hact
        constructor <;> simp_all [define, write]
      · simp [bad, Func.code] at hr
        cases hr with
        | cons hr1 hr =>
        cases hr
        cases h3 _ hr1
        simp [sem, act, bad, badBase, goodBase] at hact
        obtain ⟨rfl, rfl⟩ := hact
        constructor <;> simp_all [define, write]
      · simp [bad, Func.code] at hr
        cases hr with
        | cons hr1 hr =>
        cases hr with
        | cons hr2 hr =>
        cases hr
        cases h4 _ hr1
        simp only [Read] at hr2
        rw [h6] at hr2
        cases hr2
        simp [sem, act, bad, badBase, goodBase] at hact
        subst hact
        constructor <;> simp_all [define, write]
      · simp [bad, Func.code] at hr
        cases hr with
        | cons hr1 hr =>
        cases hr
        cases h2 _ hr1
        simp [sem, act, bad, badBase, goodBase] at hact
        obtain ⟨rfl, rfl⟩ := hact
        constructor <;> simp_all [define, write]
      · simp [bad, Func.code] at hr
        cases hr with
        | cons hr1 hr =>
        cases hr
        cases h5 _ hr1
        simp [sem, act, bad, badBase, Base.seen] at hact
        obtain ⟨⟨rfl, h8⟩, h9⟩ := hact
        constructor <;> simp_all [define, write]

/-- After the pass it is. -/
theorem bad_after : ∃ c, Reach (bad.after 5) (sem bad badBase) c ∧ c.mem.2 = .num 42 := by
  have o2 : (bad.after 5).ops 2 = [.id 1, .id 0] := by decide
  have o4 : (bad.after 5).ops 4 = [.id 0, .id 9] := by decide
  have o5 : (bad.after 5).ops 5 = [.id 1] := by decide
  have o6 : (bad.after 5).ops 6 = [.id 5, .id 8] := by decide
  have o10 : (bad.after 5).ops 10 = [.id 9] := by decide
  have b0 : (bad.after 5).body false = [0, 1, 2, 3] := by decide
  have b1 : (bad.after 5).body true = [4, 5, 6, 10, 11] := by decide
  have s0 : Reach (bad.after 5) (sem bad badBase) ⟨false, [0, 1, 2, 3], badBase.start, (fun _ => .num 0, .num 0), []⟩ := by
    have := Reach.start (P := bad.after 5) (S := sem bad badBase)
    have he : (bad.after 5).entry = false := rfl
    simpa [Start, he, b0, sem, badBase, goodBase] using this
  have s1 := Reach.step s0 (Step.act (a := []) (x := .ptr 0 true) (m' := (fun _ => .num 0, .num 0)) .nil
    (by simp [sem, act, bad, badBase, goodBase]))
  have s2 := Reach.step s1 (Step.act (a := []) (x := .ptr 1 true) (m' := (fun _ => .num 0, .num 0)) .nil
    (by simp [sem, act, bad, badBase, goodBase]))
  have s3 := Reach.step s2 (Step.act (a := [.ptr 1 true, .ptr 0 true]) (x := .num 0)
    (m' := (write (fun _ => .num 0) 1 (.ptr 0 true), .num 0))
    (by rw [o2]; exact .cons (by simp [Read, define]) (.cons (by simp [Read, define]) .nil))
    (by simp [sem, act, bad, badBase, goodBase]))
  have s4 := Reach.step s3 (Step.jump (a := []) (b' := true) (env' := _) .nil (by simp [sem, badBase])
    (by decide) (by
      have : (bad.after 5).phis true = [] := by decide
      rw [this]; simp) (fun d _ => rfl))
  rw [b1] at s4
  have s5 := Reach.step s4 (Step.act (a := [.ptr 0 true, .num 42]) (x := .num 0)
    (m' := (write (write (fun _ => .num 0) 1 (.ptr 0 true)) 0 (.num 42), .num 0))
    (by rw [o4]; exact .cons (by simp [Read, define]) (.cons (by simp [Read, define, badBase, goodBase]) .nil))
    (by simp [sem, act, bad, badBase, goodBase]))
  have s6 := Reach.step s5 (Step.act (a := [.ptr 1 true]) (x := .ptr 0 true)
    (m' := (write (write (fun _ => .num 0) 1 (.ptr 0 true)) 0 (.num 42), .num 0))
    (by rw [o5]; exact .cons (by simp [Read, define]) .nil)
    (by simp [sem, act, bad, badBase, goodBase, write]))
  have s7 := Reach.step s6 (Step.act (a := [.ptr 0 true, .num 23]) (x := .num 0)
    (m' := (write (write (write (fun _ => .num 0) 1 (.ptr 0 true)) 0 (.num 42)) 0 (.num 23), .num 0))
    (by rw [o6]; exact .cons (by simp [Read, define]) (.cons (by simp [Read, define, badBase, goodBase]) .nil))
    (by simp [sem, act, bad, badBase, goodBase]))
  have s8 := Reach.step s7 (Step.act (a := [.num 42]) (x := .num 0)
    (m' := (write (write (write (fun _ => .num 0) 1 (.ptr 0 true)) 0 (.num 42)) 0 (.num 23), .num 42))
    (by rw [o10]; exact .cons (by simp [Read, define, badBase, goodBase]) .nil)
    (by
      simp only [sem, act, bad]
      exact ⟨write (write (write (fun _ => .num 0) 1 (.ptr 0 true)) 0 (.num 42)) 0 (.num 23), by simp [badBase, Base.seen], by simp [badBase]⟩))
  exact ⟨_, s8, rfl⟩

end Verif.LocalElim.Example
