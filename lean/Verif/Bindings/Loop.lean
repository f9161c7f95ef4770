import Verif.Bindings.Lists
/-!
# Raising numbers until no conflict is left
-/
set_option linter.unusedSimpArgs false
set_option linter.unusedVariables false
namespace Verif.Bindings
open Spec

/-- Strictly increasing from each element to the next. -/
def Inc (c : Var → Nat) : List Var → Prop
  | x :: y :: l => c x < c y ∧ Inc c (y :: l)
  | _ => True

/-- `y` follows `x`. -/
def Adj (x y : Var) : List Var → Prop
  | a :: b :: l => a = x ∧ b = y ∨ Adj x y (b :: l)
  | _ => False

theorem Adj.lt {c : Var → Nat} {x y : Var} {l : List Var} (h : Adj x y l) (k : Inc c l) :
    c x < c y := by
  fun_induction Adj x y l with
  | case1 a b l ih =>
    rcases h with ⟨rfl, rfl⟩ | h
    · exact k.1
    · exact ih h k.2
  | case2 => exact absurd h (by simp)

theorem Adj.mem {x y : Var} {l : List Var} (h : Adj x y l) : x ∈ l ∧ y ∈ l := by
  fun_induction Adj x y l with
  | case1 a b l ih =>
    rcases h with ⟨rfl, rfl⟩ | h
    · simp
    · have := ih h
      exact ⟨List.mem_cons_of_mem _ this.1, List.mem_cons_of_mem _ this.2⟩
  | case2 => exact absurd h (by simp)

theorem Adj.before {x y : Var} {l : List Var} (h : Adj x y l) (k : Sorted l) : Before x y := by
  fun_induction Adj x y l with
  | case1 a b l ih =>
    rcases h with ⟨rfl, rfl⟩ | h
    · exact (List.pairwise_cons.1 k).1 _ (by simp)
    · exact ih h (List.pairwise_cons.1 k).2
  | case2 => exact absurd h (by simp)

theorem inc_of {c : Var → Nat} {l : List Var} (h : l.Pairwise fun x y => c x < c y) : Inc c l := by
  fun_induction Inc c l with
  | case1 x y l ih =>
    obtain ⟨h1, h2⟩ := List.pairwise_cons.1 h
    exact ⟨h1 y (by simp), ih h2⟩
  | case2 => trivial

theorem Inc.pairwise {c : Var → Nat} {l : List Var} (h : Inc c l) :
    l.Pairwise fun x y => c x < c y := by
  fun_induction Inc c l with
  | case1 x y l ih =>
    have ih := ih h.2
    refine List.pairwise_cons.2 ⟨?_, ih⟩
    intro z hz
    rcases List.mem_cons.1 hz with rfl | hz
    · exact h.1
    · exact Nat.lt_trans h.1 ((List.pairwise_cons.1 ih).1 z hz)
  | case2 l hl =>
    match l, hl with
    | [], _ => simp
    | [x], _ => simp
    | x :: y :: l, hl => exact absurd rfl (hl x y l)

/-- What the changes of one number keep, the passes over lists keep. -/
theorem resolve_inv {P : (Var → Nat) → Prop} (l : List Var)
    (hP : ∀ b x y, Adj x y l → b y ≤ b x → P b → P (upd b y ((b x + 1) % 2 ^ 32)))
    (b : Var → Nat) (h : P b) : P (resolve l b).1 := by
  fun_induction resolve l b with
  | case1 x y l b hxy ih =>
    exact ih (fun b u w hu => hP b u w (.inr hu)) (hP b x y (.inl ⟨rfl, rfl⟩) hxy h)
  | case2 x y l b hxy ih => exact ih (fun b u w hu => hP b u w (.inr hu)) h
  | case3 => exact h

theorem resolve_same (l : List Var) (b : Var → Nat) (h : (resolve l b).2 = false) :
    (resolve l b).1 = b ∧ Inc b l := by
  fun_induction resolve l b with
  | case1 x y l b hxy ih => simp at h
  | case2 x y l b hxy ih =>
    obtain ⟨h1, h2⟩ := ih h
    exact ⟨h1, by omega, h2⟩
  | case3 l b hl =>
    refine ⟨rfl, ?_⟩
    match l, hl with
    | [], _ => trivial
    | [x], _ => trivial
    | x :: y :: l, hl => exact absurd rfl (hl x y l)

/-- A property of states reached by changes, once one was made. -/
theorem resolve_changed {P : (Var → Nat) → Prop} {Q : (Var → Nat) → Prop} (l : List Var)
    (hQ : ∀ b x y, Adj x y l → b y ≤ b x → Q b → Q (upd b y ((b x + 1) % 2 ^ 32)))
    (hP : ∀ b x y, Adj x y l → b y ≤ b x → Q b → P (upd b y ((b x + 1) % 2 ^ 32)))
    (b : Var → Nat) (h : Q b) (hc : (resolve l b).2 = true) :
    (∀ b x y, Adj x y l → b y ≤ b x → Q b → P b → P (upd b y ((b x + 1) % 2 ^ 32))) →
    P (resolve l b).1 := by
  intro hk
  fun_induction resolve l b with
  | case1 x y l b hxy ih =>
    have hq := hQ b x y (.inl ⟨rfl, rfl⟩) hxy h
    have hp := hP b x y (.inl ⟨rfl, rfl⟩) hxy h
    exact (resolve_inv (P := fun b => Q b ∧ P b) (y :: l)
      (fun b u w hu hle hh => ⟨hQ b u w (.inr hu) hle hh.1, hk b u w (.inr hu) hle hh.1 hh.2⟩) _
      ⟨hq, hp⟩).2
  | case2 x y l b hxy ih =>
    exact ih (fun b u w hu => hQ b u w (.inr hu)) (fun b u w hu => hP b u w (.inr hu)) h hc
      (fun b u w hu => hk b u w (.inr hu))
  | case3 => simp at hc

/-- A pair in one of the lists. -/
def AdjIn (ls : List (List Var)) (x y : Var) : Prop := ∃ l ∈ ls, Adj x y l

def roundFrom (ls : List (List Var)) (acc : (Var → Nat) × Bool) : (Var → Nat) × Bool :=
  ls.foldl (fun acc l => ((resolve l acc.1).1, acc.2 || (resolve l acc.1).2)) acc

theorem roundFrom_inv {P : (Var → Nat) → Prop} (ls : List (List Var))
    (hP : ∀ b x y, AdjIn ls x y → b y ≤ b x → P b → P (upd b y ((b x + 1) % 2 ^ 32)))
    (acc : (Var → Nat) × Bool) (h : P acc.1) : P (roundFrom ls acc).1 := by
  induction ls generalizing acc with
  | nil => exact h
  | cons l ls ih =>
    exact ih (fun b x y ⟨k, hk, hx⟩ => hP b x y ⟨k, by simp [hk], hx⟩) _
      (resolve_inv l (fun b x y hx => hP b x y ⟨l, by simp, hx⟩) _ h)

theorem roundFrom_flag (ls : List (List Var)) (acc : (Var → Nat) × Bool) (h : acc.2 = true) :
    (roundFrom ls acc).2 = true := by
  induction ls generalizing acc with
  | nil => exact h
  | cons l ls ih => exact ih _ (by simp [h])

theorem roundFrom_same (ls : List (List Var)) (acc : (Var → Nat) × Bool)
    (h : (roundFrom ls acc).2 = false) :
    (roundFrom ls acc).1 = acc.1 ∧ ∀ l ∈ ls, Inc acc.1 l := by
  induction ls generalizing acc with
  | nil => exact ⟨rfl, by simp⟩
  | cons l ls ih =>
    have hf : (acc.2 || (resolve l acc.1).2) = false := by
      cases hx : (acc.2 || (resolve l acc.1).2)
      · rfl
      · have := roundFrom_flag ls ((resolve l acc.1).1, acc.2 || (resolve l acc.1).2) hx
        have h' : (roundFrom ls ((resolve l acc.1).1, acc.2 || (resolve l acc.1).2)).2 = false := h
        rw [this] at h'
        cases h'
    have hs := resolve_same l acc.1 (by simp at hf; exact hf.2)
    obtain ⟨h1, h2⟩ := ih ((resolve l acc.1).1, acc.2 || (resolve l acc.1).2) h
    refine ⟨?_, ?_⟩
    · show (roundFrom ls _).1 = _
      rw [h1]; exact hs.1
    · intro k hk
      rcases List.mem_cons.1 hk with rfl | hk
      · exact hs.2
      · have := h2 k hk; simp only [hs.1] at this; exact this

theorem roundFrom_changed {P : (Var → Nat) → Prop} {Q : (Var → Nat) → Prop} (ls : List (List Var))
    (hQ : ∀ b x y, AdjIn ls x y → b y ≤ b x → Q b → Q (upd b y ((b x + 1) % 2 ^ 32)))
    (hP : ∀ b x y, AdjIn ls x y → b y ≤ b x → Q b → P (upd b y ((b x + 1) % 2 ^ 32)))
    (acc : (Var → Nat) × Bool) (h : Q acc.1) (ha : acc.2 = true → P acc.1)
    (hc : (roundFrom ls acc).2 = true)
    (hk : ∀ b x y, AdjIn ls x y → b y ≤ b x → Q b → P b → P (upd b y ((b x + 1) % 2 ^ 32))) :
    P (roundFrom ls acc).1 := by
  induction ls generalizing acc with
  | nil => exact ha hc
  | cons l ls ih =>
    refine ih (fun b x y ⟨k, hk, hx⟩ => hQ b x y ⟨k, by simp [hk], hx⟩)
      (fun b x y ⟨k, hk, hx⟩ => hP b x y ⟨k, by simp [hk], hx⟩)
      ((resolve l acc.1).1, acc.2 || (resolve l acc.1).2)
      (resolve_inv l (fun b x y hx => hQ b x y ⟨l, by simp, hx⟩) _ h) ?_ hc
      (fun b x y ⟨k, hk', hx⟩ => hk b x y ⟨k, by simp [hk'], hx⟩)
    intro hf
    simp only [Bool.or_eq_true] at hf
    by_cases hr : (resolve l acc.1).2 = true
    · exact resolve_changed l (fun b x y hx => hQ b x y ⟨l, by simp, hx⟩)
        (fun b x y hx => hP b x y ⟨l, by simp, hx⟩) _ h hr
        (fun b x y hx => hk b x y ⟨l, by simp, hx⟩)
    · have hr' : (resolve l acc.1).2 = false := by simpa using hr
      show P (resolve l acc.1).1
      rw [(resolve_same l acc.1 hr').1]
      rcases hf with hf | hf
      · exact ha hf
      · exact absurd hf hr

/-! ### sums -/

def gap (A : List Var) (c b : Var → Nat) : Nat := (A.map fun v => c v - b v).sum

theorem gap_le {A : List Var} {c b b' : Var → Nat} (h : ∀ v, b v ≤ b' v) :
    gap A c b' ≤ gap A c b := by
  unfold gap
  induction A with
  | nil => simp
  | cons a A ih => have := h a; simp only [List.map_cons, List.sum_cons]; omega

theorem gap_lt {A : List Var} {c b b' : Var → Nat} (h : ∀ v, b v ≤ b' v) {y : Var} (hy : y ∈ A)
    (hlt : b y < b' y) (hc : b' y ≤ c y) : gap A c b' < gap A c b := by
  induction A with
  | nil => simp at hy
  | cons a A ih =>
    have hle := gap_le (A := A) (c := c) h
    unfold gap at *
    simp only [List.map_cons, List.sum_cons]
    rcases List.mem_cons.1 hy with rfl | hy
    · omega
    · have := ih hy; have := h a; omega

/-! ### the loop -/

/-- The lists, over variables `A`. -/
structure Lists (A : List Var) (ls : List (List Var)) : Prop where
  mem : ∀ l ∈ ls, ∀ v ∈ l, v ∈ A
  sorted : ∀ l ∈ ls, Sorted l

/-- Numbers without conflict in the lists. -/
structure Sol (A : List Var) (ls : List (List Var)) (c : Var → Nat) : Prop where
  up : ∀ v, v.first ≤ c v
  fits : ∀ v ∈ A, c v < 2 ^ 32
  inc : ∀ l ∈ ls, Inc c l

theorem below_step {A : List Var} {ls : List (List Var)} {c : Var → Nat} (hl : Lists A ls)
    (hc : Sol A ls c) {b0 : Var → Nat} (b : Var → Nat) (x y : Var) (h : AdjIn ls x y)
    (hle : b y ≤ b x) (hq : ∀ v, b0 v ≤ b v ∧ b v ≤ c v) :
    (∀ v, b0 v ≤ upd b y ((b x + 1) % 2 ^ 32) v ∧ upd b y ((b x + 1) % 2 ^ 32) v ≤ c v) ∧
    (∀ v, b v ≤ upd b y ((b x + 1) % 2 ^ 32) v) ∧ b y < upd b y ((b x + 1) % 2 ^ 32) y := by
  obtain ⟨l, hl', ha⟩ := h
  have hlt := ha.lt (hc.inc l hl')
  have hy := hc.fits y (hl.mem l hl' y ha.mem.2)
  have hx := (hq x).2
  have e : (b x + 1) % 2 ^ 32 = b x + 1 := Nat.mod_eq_of_lt (by omega)
  rw [e]
  refine ⟨?_, ?_, ?_⟩
  · intro v
    have := hq v
    unfold upd
    by_cases hv : v = y
    · subst hv; simp only [if_true]; omega
    · simp only [hv, if_false]; omega
  · intro v
    unfold upd
    by_cases hv : v = y
    · subst hv; simp only [if_true]; omega
    · simp only [hv, if_false]; omega
  · simp only [upd, if_true]; omega

theorem round_below {A : List Var} {ls : List (List Var)} {c : Var → Nat} (hl : Lists A ls)
    (hc : Sol A ls c) (b : Var → Nat) (hq : ∀ v, b v ≤ c v) :
    ∀ v, b v ≤ (round ls b).1 v ∧ (round ls b).1 v ≤ c v :=
  roundFrom_inv (P := fun b' => ∀ v, b v ≤ b' v ∧ b' v ≤ c v) ls
    (fun b' x y h hle hh => (below_step hl hc b' x y h hle hh).1) (b, false)
    (fun v => ⟨Nat.le_refl _, hq v⟩)

theorem round_gap {A : List Var} {ls : List (List Var)} {c : Var → Nat} (hl : Lists A ls)
    (hc : Sol A ls c) (b : Var → Nat) (hq : ∀ v, b v ≤ c v) (h : (round ls b).2 = true) :
    gap A c (round ls b).1 < gap A c b := by
  refine roundFrom_changed (P := fun b' => gap A c b' < gap A c b)
    (Q := fun b' => ∀ v, b v ≤ b' v ∧ b' v ≤ c v) ls
    (fun b' x y h hle hh => (below_step hl hc b' x y h hle hh).1) ?_ (b, false)
    (fun v => ⟨Nat.le_refl _, hq v⟩) (by simp) h ?_
  · intro b' x y hadj hle hh
    obtain ⟨h1, h2, h3⟩ := below_step hl hc b' x y hadj hle hh
    have hy : y ∈ A := by obtain ⟨l, hl', ha⟩ := hadj; exact hl.mem l hl' y ha.mem.2
    have := gap_lt (A := A) (c := c) h2 hy h3 (h1 y).2
    have := gap_le (A := A) (c := c) (fun v => (hh v).1)
    omega
  · intro b' x y hadj hle hh hp
    obtain ⟨h1, h2, h3⟩ := below_step hl hc b' x y hadj hle hh
    have := gap_le (A := A) (c := c) h2
    omega

/-- With a solution the loop ends. -/
theorem loop_ends {A : List Var} {ls : List (List Var)} {c : Var → Nat} (hl : Lists A ls)
    (hc : Sol A ls c) (n : Nat) (b : Var → Nat) (md : Bool) (hq : ∀ v, b v ≤ c v)
    (hn : gap A c b < n) : ∃ r, loop ls n b md = some r := by
  induction n generalizing b md with
  | zero => omega
  | succ n ih =>
    unfold loop
    split
    · rename_i h
      have := round_gap hl hc b hq h
      exact ih _ true (fun v => (round_below hl hc b hq v).2) (by omega)
    · exact ⟨_, rfl⟩

/-- What the loop ends with. -/
theorem loop_result {A : List Var} {ls : List (List Var)} {c : Var → Nat} (hl : Lists A ls)
    (hc : Sol A ls c) (n : Nat) (b : Var → Nat) (md : Bool) (hq : ∀ v, b v ≤ c v)
    {b' : Var → Nat} {md' : Bool} (h : loop ls n b md = some (b', md')) :
    (∀ v, b v ≤ b' v ∧ b' v ≤ c v) ∧ (md' = true ↔ md = true ∨ b' ≠ b) := by
  induction n generalizing b md with
  | zero => simp [loop] at h
  | succ n ih =>
    unfold loop at h
    have hb := round_below hl hc b hq
    split at h
    · rename_i hr
      obtain ⟨h1, h2⟩ := ih _ true (fun v => (hb v).2) h
      refine ⟨fun v => ⟨Nat.le_trans (hb v).1 (h1 v).1, (h1 v).2⟩, ?_⟩
      have hg := round_gap hl hc b hq hr
      have hg' := gap_le (A := A) (c := c) (fun v => (h1 v).1)
      constructor
      · intro _
        refine .inr fun he => ?_
        rw [he] at hg'
        omega
      · intro _; exact h2.2 (.inl rfl)
    · rename_i hr
      simp only [Option.some.injEq, Prod.mk.injEq] at h
      obtain ⟨h1, h2⟩ := h
      subst h1 h2
      have hs := (roundFrom_same ls (b, false) (by simpa [round, roundFrom] using hr)).1
      have hs : (round ls b).1 = b := hs
      refine ⟨hb, ?_⟩
      simp [hs]

theorem loop_inv {P : (Var → Nat) → Prop} (ls : List (List Var))
    (hP : ∀ b x y, AdjIn ls x y → b y ≤ b x → P b → P (upd b y ((b x + 1) % 2 ^ 32)))
    (n : Nat) (b : Var → Nat) (md : Bool) (h : P b) {b' : Var → Nat} {md' : Bool}
    (hr : loop ls n b md = some (b', md')) : P b' ∧ ∀ l ∈ ls, Inc b' l := by
  induction n generalizing b md with
  | zero => simp [loop] at hr
  | succ n ih =>
    unfold loop at hr
    have hb : P (round ls b).1 := roundFrom_inv ls hP (b, false) h
    split at hr
    · exact ih _ true hb hr
    · rename_i hf
      simp only [Option.some.injEq, Prod.mk.injEq] at hr
      obtain ⟨h1, h2⟩ := hr
      have hs := roundFrom_same ls (b, false) (by simpa [round, roundFrom] using hf)
      have e : (round ls b).1 = b := hs.1
      subst h1
      rw [e] at hb ⊢
      exact ⟨hb, hs.2⟩

/-- A number at its limit which another one has to exceed. -/
def Stuck (ls : List (List Var)) (b : Var → Nat) : Prop :=
  ∃ x y, AdjIn ls x y ∧ b x = 2 ^ 32 - 1

/-- When the loop ends, the numbers are a solution. -/
theorem loop_sol {A : List Var} {ls : List (List Var)} (hl : Lists A ls)
    (hw : ∀ v ∈ A, v.first < 2 ^ 32) (n : Nat) {b' : Var → Nat} {md' : Bool}
    (h : loop ls n Var.first false = some (b', md')) : Sol A ls b' := by
  have := loop_inv (P := fun b => (∀ v ∈ A, b v < 2 ^ 32) ∧ ((∀ v, v.first ≤ b v) ∨ Stuck ls b)) ls
    (by
      rintro b x y hadj hle ⟨h1, h2⟩
      have hadj' := hadj
      obtain ⟨l, hl', ha⟩ := hadj'
      have hx := h1 x (hl.mem l hl' x ha.mem.1)
      refine ⟨?_, ?_⟩
      · intro v hv
        unfold upd
        split
        · exact Nat.mod_lt _ (by decide)
        · exact h1 v hv
      · by_cases hm : b x = 2 ^ 32 - 1 ∨ Stuck ls b
        · right
          have hst : Stuck ls b := by
            rcases hm with hm | hm
            · exact ⟨x, y, hadj, hm⟩
            · exact hm
          obtain ⟨p, q, hpq, hp⟩ := hst
          by_cases hyp : p = y
          · subst hyp
            refine ⟨x, p, hadj, ?_⟩
            have hne : x ≠ p := fun he => by
              subst he
              exact Before.irrefl x (ha.before (hl.sorted l hl'))
            simp only [upd, hne, if_false]
            omega
          · exact ⟨p, q, hpq, by simp only [upd, hyp, if_false]; exact hp⟩
        · left
          have h3 : ∀ v, v.first ≤ b v := by
            rcases h2 with h2 | h2
            · exact h2
            · exact absurd (.inr h2) hm
          have hm1 : b x ≠ 2 ^ 32 - 1 := fun h => hm (.inl h)
          have e : (b x + 1) % 2 ^ 32 = b x + 1 := Nat.mod_eq_of_lt (by omega)
          intro v
          have hv := h3 v
          have hy := h3 y
          rw [e]
          unfold upd
          split
          · rename_i he; subst he; omega
          · exact hv)
    n Var.first false ⟨hw, .inl fun v => Nat.le_refl _⟩ h
  obtain ⟨⟨h1, h2⟩, h3⟩ := this
  refine ⟨?_, h1, h3⟩
  rcases h2 with h2 | ⟨x, y, ⟨l, hl', ha⟩, hx⟩
  · exact h2
  · have := ha.lt (h3 l hl')
    have := h1 y (hl.mem l hl' y ha.mem.2)
    omega

theorem loop_mono {ls : List (List Var)} {n k : Nat} {b : Var → Nat} {md : Bool}
    {r : (Var → Nat) × Bool} (hk : n ≤ k) (h : loop ls n b md = some r) :
    loop ls k b md = some r := by
  induction n generalizing b md k with
  | zero => simp [loop] at h
  | succ n ih =>
    obtain ⟨k, rfl⟩ : ∃ k', k = k' + 1 := ⟨k - 1, by omega⟩
    unfold loop at h ⊢
    split at h
    · rename_i hr
      rw [if_pos hr]
      exact ih (by omega) h
    · rename_i hr
      rw [if_neg hr]
      exact h

end Verif.Bindings
