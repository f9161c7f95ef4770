import Verif.Ccp.Total
set_option linter.unusedSimpArgs false
set_option linter.unusedVariables false
/-!
# A function with a switch

`switch %0 { default: block 2; 0: block 3 }` in block 1; blocks 2 and 3 branch to block 4, which has
`%6 = phi [%1, block 3], [%2, block 2]; %7 = %6 + %6; return`. `%0`, `%1` and `%2` are the constants `n`,
10 and 20. Folding may declare `%9`, 40. Blocks 0 and 5 are the pseudo entry and exit.
-/
namespace Verif.Ccp.Example
open Propagator Propagator.Spec Ccp.Spec

def base : Prog (Fin 10) (Fin 6) where
  insts b := if b = 1 then [3] else if b = 2 then [4] else if b = 3 then [5] else if b = 4 then [6, 7, 8] else []
  phis b := if b = 4 then [6] else []
  block i := if i = 3 then some 1 else if i = 4 then some 2 else if i = 5 then some 3
    else if i = 6 ∨ i = 7 ∨ i = 8 then some 4 else none
  users i := if i = 0 then [3] else if i = 1 ∨ i = 2 then [6] else if i = 6 then [7] else []
  isPhi i := i == 6
  args i := if i = 6 then [(1, 3), (2, 2)] else []
  inDefs i := if i = 3 then [0] else if i = 7 then [6] else []
  terminator i := i == 3 || i == 4 || i == 5 || i == 8
  succs b := if b = 0 then [1] else if b = 1 then [2, 3] else if b = 2 then [4] else if b = 3 then [4]
    else if b = 4 then [5] else []
  pseudoEntry := 0
  pseudoExit := 5
  entry := 1

def kindF (i : Fin 10) : Kind (Fin 10) (Fin 6) :=
  if i = 3 then .switch 0 2 [(0, 3)] else if i = 4 then .br 4 else if i = 5 then .br 4
  else if i = 6 then .phi else if i = 7 then .foldable else .effect

def constF (n : Nat) (i : Fin 10) : Option Const :=
  if i = 0 then some (.int n) else if i = 1 then some (.int 10) else if i = 2 then some (.int 20)
  else if i = 9 then some (.int 40) else none

def foldF (i : Fin 10) (m : Fin 10 → Fin 10) : Option (Fin 10) :=
  if i = 7 then (if m 6 = 1 then some 2 else if m 6 = 2 then some 9 else none) else none

def func (n : Nat) : Func (Fin 10) (Fin 6) :=
  { base with kind := kindF, const := constF n, fold := foldF, global := fun i => i == 0 || i == 1 || i == 2 }

def sem (n : Nat) : Sem (Fin 10) Unit where
  start _ := .data 0
  constVal i := if i = 0 then .int n else if i = 1 then .int 10 else if i = 2 then .int 20 else .int 40
  mem := ()
  act i a _ x _ := if i = 7 then ∃ y, a 6 = .int y ∧ x = .int (y + y) else True

theorem split_one {α : Type} {a x : α} {l₁ l₂ : List α} (h : [a] = l₁ ++ x :: l₂) : x = a ∧ l₂ = [] := by
  cases l₁ with
  | nil => cases h; exact ⟨rfl, rfl⟩
  | cons c l => cases l <;> cases h

theorem split_three {α : Type} {a b c x : α} {l₁ l₂ : List α} (h : [a, b, c] = l₁ ++ x :: l₂) :
    (x = a ∧ l₂ = [b, c]) ∨ (x = b ∧ l₂ = [c]) ∨ (x = c ∧ l₂ = []) := by
  cases l₁ with
  | nil => cases h; exact .inl ⟨rfl, rfl⟩
  | cons y l =>
    cases l with
    | nil => cases h; exact .inr (.inl ⟨rfl, rfl⟩)
    | cons z l =>
      cases l with
      | nil => cases h; exact .inr (.inr ⟨rfl, rfl⟩)
      | cons w l => cases l <;> cases h

theorem insts_split {b : Fin 6} {l₁ l₂ : List (Fin 10)} {i : Fin 10} (h : base.insts b = l₁ ++ i :: l₂) :
    (b = 1 ∧ i = 3 ∧ l₂ = []) ∨ (b = 2 ∧ i = 4 ∧ l₂ = []) ∨ (b = 3 ∧ i = 5 ∧ l₂ = []) ∨
    (b = 4 ∧ ((i = 6 ∧ l₂ = [7, 8]) ∨ (i = 7 ∧ l₂ = [8]) ∨ (i = 8 ∧ l₂ = []))) := by
  by_cases h1 : b = 1
  · subst h1; exact .inl ⟨rfl, split_one h⟩
  · by_cases h2 : b = 2
    · subst h2; exact .inr (.inl ⟨rfl, split_one h⟩)
    · by_cases h3 : b = 3
      · subst h3; exact .inr (.inr (.inl ⟨rfl, split_one h⟩))
      · by_cases h4 : b = 4
        · subst h4; exact .inr (.inr (.inr ⟨rfl, split_three h⟩))
        · simp [base, h1, h2, h3, h4] at h

theorem base_wf : WellFormed base where
  block := by decide
  phis := by decide
  users := by
    intro i d h
    unfold Uses at h
    revert i d
    decide
  last b l₁ i l₂ ht h := by
    rcases insts_split h with ⟨-, -, h⟩ | ⟨-, -, h⟩ | ⟨-, -, h⟩ | ⟨-, ⟨rfl, -⟩ | ⟨rfl, -⟩ | ⟨-, h⟩⟩
    · exact h
    · exact h
    · exact h
    · cases ht
    · cases ht
    · exact h
  termPhi := by decide
  termUse := by
    intro i d
    unfold Uses
    revert i d
    decide
  order b l₁ d l₂ i h hi hp hu := by
    unfold Uses at hu
    rcases insts_split h with ⟨-, rfl, rfl⟩ | ⟨-, rfl, rfl⟩ | ⟨-, rfl, rfl⟩ | ⟨-, ⟨rfl, rfl⟩ | ⟨rfl, rfl⟩ | ⟨rfl, rfl⟩⟩
      <;> (clear h; revert i b; decide)
  phiArgs i b d q hp hb ha := by
    have hi : i = 6 := by clear ha hb; revert i; decide
    subst hi
    have : (d, q) = (1, 3) ∨ (d, q) = (2, 2) := by simpa [base] using ha
    rcases this with h | h <;> cases h
    · exact ⟨by decide, fun bd h => by cases h⟩
    · exact ⟨by decide, fun bd h => by cases h⟩
  succs := by decide
  exit := by decide
  entry := by decide

theorem kind_switch {i : Fin 10} {sel dflt cases} (h : kindF i = .switch sel dflt cases) :
    i = 3 ∧ sel = 0 ∧ dflt = 2 ∧ cases = [(0, 3)] := by
  unfold kindF at h
  by_cases h3 : i = 3
  · rw [if_pos h3] at h; cases h; exact ⟨h3, rfl, rfl, rfl⟩
  · rw [if_neg h3] at h
    repeat' split at h
    all_goals cases h

theorem kind_br : ∀ {i : Fin 10} {t}, kindF i = .br t → (i = 4 ∨ i = 5) ∧ t = 4 := by decide
theorem kind_cond : ∀ {i c : Fin 10} {t e}, kindF i ≠ .cond c t e := by
  intro i c t e h
  unfold kindF at h
  repeat' split at h
  all_goals cases h
theorem kind_copy : ∀ {i c : Fin 10}, kindF i ≠ .copy c := by decide

theorem const_some {n : Nat} {d : Fin 10} (h : constF n d ≠ none) :
    (d = 0 ∧ constF n d = some (.int n)) ∨ (d = 1 ∧ constF n d = some (.int 10)) ∨
    (d = 2 ∧ constF n d = some (.int 20)) ∨ (d = 9 ∧ constF n d = some (.int 40)) := by
  unfold constF at h ⊢
  by_cases h0 : d = 0
  · subst h0; simp
  · by_cases h1 : d = 1
    · subst h1; simp
    · by_cases h2 : d = 2
      · subst h2; simp
      · by_cases h9 : d = 9
        · subst h9; simp
        · simp [h0, h1, h2, h9] at h

theorem valid (n : Nat) : Valid (func n) where
  prog := base_wf
  phiKind := by show ∀ i, base.isPhi i = true ↔ kindF i = .phi; decide
  br i t h := by
    obtain ⟨h1, rfl⟩ := kind_br h
    have : ∀ i : Fin 10, i = 4 ∨ i = 5 → base.terminator i = true ∧ (4 : Fin 6) ≠ base.pseudoExit ∧
      ∀ b, base.block i = some b → 4 ∈ base.succs b := by decide
    exact this i h1
  cond i c t e h := absurd h kind_cond
  switch i sel dflt cases h := by
    obtain ⟨rfl, rfl, rfl, rfl⟩ := kind_switch h
    have : ∀ t : Fin 6, t = 2 ∨ t ∈ [(0, 3)].map (·.2) → t ≠ base.pseudoExit ∧
      ∀ b, base.block 3 = some b → t ∈ base.succs b := by decide
    exact ⟨by simp [func, base], rfl, this⟩
  copy i src h := absurd h kind_copy
  consts d h := by
    rcases const_some h with ⟨rfl, -⟩ | ⟨rfl, -⟩ | ⟨rfl, -⟩ | ⟨rfl, -⟩ <;> rfl
  globals := by
    show ∀ d : Fin 10, (d == 0 || d == 1 || d == 2) = true → base.block d = none
    decide
  declared i d hu h := by
    rcases const_some h with ⟨rfl, -⟩ | ⟨rfl, -⟩ | ⟨rfl, -⟩ | ⟨rfl, -⟩
    · rfl
    · rfl
    · rfl
    · exfalso
      have key : ∀ i, ¬ (if base.isPhi i = true then ∃ b, ((9 : Fin 10), b) ∈ base.args i else 9 ∈ base.inDefs i) := by decide
      exact key i hu

theorem foldSound (n : Nat) : FoldSound (func n) (sem n) where
  consts i m k h := by
    have h : foldF i m = some k := h
    show constF n k ≠ none
    unfold foldF at h
    split at h
    · split at h
      · cases h; simp [constF]
      · split at h
        · cases h; simp [constF]
        · cases h
    · cases h
  value i m k a mem x mem' hk h' hop ha := by
    have h : foldF i m = some k := h'
    clear h'
    unfold foldF at h
    split at h
    · next hi =>
      subst hi
      obtain ⟨y, h1, h2⟩ : ∃ y, a 6 = .int y ∧ x = .int (y + y) := ha
      have hop : constF n (m 6) ≠ none → a 6 = (sem n).constVal (m 6) := hop 6 (by simp [func, base])
      split at h
      · next hm =>
        cases h
        rw [hm] at hop
        have := (hop (by simp [constF])).symm.trans h1
        have hy : Value.int 10 = .int y := this
        cases hy
        exact h2
      · split at h
        · next hm =>
          cases h
          rw [hm] at hop
          have := (hop (by simp [constF])).symm.trans h1
          have hy : Value.int 20 = .int y := this
          cases hy
          exact h2
        · cases h
    · cases h

theorem constVals (n : Nat) : ConstVals (func n) (sem n) where
  bool k b h := by
    have h : constF n k = some (.bool b) := h
    rcases const_some (d := k) (n := n) (by rw [h]; simp) with ⟨-, e⟩ | ⟨-, e⟩ | ⟨-, e⟩ | ⟨-, e⟩ <;> rw [h] at e <;> cases e
  int k b h := by
    have h : constF n k = some (.int b) := h
    rcases const_some (d := k) (n := n) (by rw [h]; simp) with ⟨rfl, e⟩ | ⟨rfl, e⟩ | ⟨rfl, e⟩ | ⟨rfl, e⟩ <;> rw [h] at e <;>
      cases e <;> rfl
  null k h := by
    have h : constF n k = some .null := h
    rcases const_some (d := k) (n := n) (by rw [h]; simp) with ⟨-, e⟩ | ⟨-, e⟩ | ⟨-, e⟩ | ⟨-, e⟩ <;> rw [h] at e <;> cases e

/-- The points of the executions. -/
def Here (n : Nat) (c : Config (Fin 10) (Fin 6) Unit) : Prop :=
  (c.block = 1 ∧ c.rest = [3]) ∨ (c.block = 2 ∧ c.rest = [4]) ∨ (c.block = 3 ∧ c.rest = [5]) ∨
  (c.block = 4 ∧ c.rest = [7, 8] ∧ c.env 6 ≠ none) ∨ (c.block = 4 ∧ c.rest = [8]) ∨ (c.block = 4 ∧ c.rest = [])

theorem here {n : Nat} {c : Config (Fin 10) (Fin 6) Unit} (h : Reach (func n) (sem n) id c) : Here n c := by
  induction h with
  | start => exact .inl ⟨rfl, rfl⟩
  | step _ hs ih =>
    have jump4 : ∀ {c c'}, Jump (func n) (sem n) id c 4 c' → Here n c' := by
      rintro c c' ⟨env, hp, -⟩
      obtain ⟨d, -, -, h⟩ := hp 6 (by simp [func, base])
      exact .inr (.inr (.inr (.inl ⟨rfl, rfl, h⟩)))
    cases hs with
    | @br b i rest env m t _ hk hj =>
      obtain ⟨-, rfl⟩ := kind_br hk
      exact jump4 hj
    | cond hk => exact absurd hk kind_cond
    | @switch b i rest env m sel dflt cases k _ hk hr hj =>
      obtain ⟨-, rfl, rfl, rfl⟩ := kind_switch hk
      unfold target at hj
      split at hj
      · next h =>
        rw [List.find?_singleton] at h
        split at h
        · cases h
          obtain ⟨env, -, -⟩ := hj
          exact .inr (.inr (.inl ⟨rfl, rfl⟩))
        · cases h
      · obtain ⟨env, -, -⟩ := hj
        exact .inr (.inl ⟨rfl, rfl⟩)
    | copy hk => exact absurd hk kind_copy
    | @assign b i rest env m a x m' hk hr ha =>
      rcases ih with ⟨h1, h2⟩ | ⟨h1, h2⟩ | ⟨h1, h2⟩ | ⟨h1, h2, h3⟩ | ⟨h1, h2⟩ | ⟨h1, h2⟩ <;> cases h2
      · rcases hk with hk | hk <;> cases hk
      · rcases hk with hk | hk <;> cases hk
      · rcases hk with hk | hk <;> cases hk
      · exact .inr (.inr (.inr (.inr (.inl ⟨h1, rfl⟩))))
      · rcases hk with hk | hk <;> cases hk
    | @effect b i rest env m a x m' hk hr ha =>
      rcases ih with ⟨h1, h2⟩ | ⟨h1, h2⟩ | ⟨h1, h2⟩ | ⟨h1, h2, h3⟩ | ⟨h1, h2⟩ | ⟨h1, h2⟩ <;> cases h2
      · cases hk
      · cases hk
      · cases hk
      · cases hk
      · exact .inr (.inr (.inr (.inr (.inr ⟨h1, rfl⟩))))

theorem narrow {n : Nat} (hn : n < 2 ^ 32) : Narrow (func n) (sem n) := by
  intro c _ i rest sel dflt cases _ hk
  obtain ⟨-, rfl, rfl, rfl⟩ := kind_switch hk
  refine ⟨fun k hk => ?_, by simp⟩
  have : Value.int n = .int k := Option.some.inj hk
  cases this
  exact hn

theorem defined (n : Nat) : Defined (func n) (sem n) := by
  intro c hc d hd
  have hconst : ∀ d : Fin 10, d = 0 ∨ d = 1 ∨ d = 2 → read (func n) (sem n) c.env d ≠ none := by
    rintro d (rfl | rfl | rfl) <;> exact fun h => by cases h
  obtain ⟨i, rest, hr, hd⟩ := hd
  rcases hd with hd | ⟨b', j, h1, h2, h3, h4⟩
  · have hd : d ∈ base.inDefs i := hd
    rcases here hc with ⟨h1, h2⟩ | ⟨h1, h2⟩ | ⟨h1, h2⟩ | ⟨h1, h2, h3⟩ | ⟨h1, h2⟩ | ⟨h1, h2⟩ <;> rw [h2] at hr <;> cases hr
    · have : d = 0 := by simpa [base] using hd
      exact hconst d (.inl this)
    · simp [base] at hd
    · simp [base] at hd
    · have : d = 6 := by simpa [base] using hd
      subst this
      exact h3
    · simp [base] at hd
  · have h3 : (d, c.block) ∈ base.args j := h3
    have : ∀ j d b, (d, b) ∈ base.args j → d = 0 ∨ d = 1 ∨ d = 2 := by decide
    exact hconst d (this j d _ h3)

theorem foldGrows (n : Nat) : FoldGrows (func n) := by
  intro i m m' h hf
  have hf : foldF i m ≠ none := hf
  show foldF i m' ≠ none
  unfold foldF at hf ⊢
  by_cases hi : i = 7
  · subst hi
    rw [if_pos rfl] at hf ⊢
    have h6 : m' 6 = m 6 := by
      rcases h 6 (by simp [func, base]) with h | ⟨h, -⟩
      · exact h
      · rw [h] at hf; simp at hf
    rw [h6]; exact hf
  · rw [if_neg hi] at hf; exact absurd rfl hf

theorem typed (n : Nat) : Typed (func n) (fun _ => 0) 1 (fun t => t = 0) where
  phi _ _ _ _ _ := rfl
  copy _ _ _ := rfl
  fold _ _ _ _ := rfl
  cond i c t e h := absurd h kind_cond
  switch _ _ _ _ _ := rfl
  bool _ _ h := by cases h
  int k h _ := by
    have h : constF n k ≠ none := h
    rcases const_some h with ⟨-, e⟩ | ⟨-, e⟩ | ⟨-, e⟩ | ⟨-, e⟩ <;> exact .inr ⟨_, e⟩

/-- The entries of `%6` and `%7`, and the blocks simulated. -/
def result : Outcome (State (Fin 10) (Fin 6) (Table (Fin 10))) →
    Option (Option (Entry (Fin 10)) × Option (Entry (Fin 10)) × List (Fin 6))
  | .done _ s => some (s.val 6, s.val 7, s.simulated)
  | _ => none

/-- The switch goes to block 3. -/
theorem run0 : result ((func 0).run 20) = some (some (.const 1), some (.const 2), [4, 3, 1]) := by decide +kernel
/-- The switch goes to block 2, and a new constant is needed. -/
theorem run5 : result ((func 5).run 20) = some (some (.const 2), some (.const 9), [4, 2, 1]) := by decide +kernel
/-- The selector has 64 bits, its low word is 0. -/
theorem run64 : result ((func (2 ^ 32)).run 20) = some (some (.const 1), some (.const 2), [4, 3, 1]) := by
  decide +kernel

end Verif.Ccp.Example
