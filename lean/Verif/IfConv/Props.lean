import Verif.IfConv.Steps

/-!
# C70: if-conversion

Read `Spec.lean` first: a function is run block by block, with any meaning `S` for its instructions;
`M` holds memory and output.

* `runs_kept_partial`: turning phis into selects keeps all runs: the same configurations are reached
  along the same blocks, with the same values of all ids. What is missing is in the hypothesis
  `SidesApart`: no block can be reached from both sides of a selection.
* `shared_side_wrong`: without it the statement does not hold. With
  `if (c || c2) x = 1; else x = 2;` compiled to a selection whose false side goes on to the true side,
  the select looks at `c` alone.
-/

namespace Verif.IfConv
open Spec

/-- **C70**: what can be reached, and along which blocks, is the same before and after. -/
theorem runs_kept_partial {V M : Type} (S : Sem V M) (shader : Bool) (fn : Fn) (A : Info)
    (hv : Valid S fn) (hr : Right fn A) (hred : Reducible fn) (ha : SidesApart fn) (l : List Lab)
    (s : Config V M) : Reach S (convert shader fn A) l s ↔ Reach S fn l s := by
  constructor
  · intro h
    induction h with
    | start hb =>
      have he : (convert shader fn A).entry = fn.entry := by cases shader <;> rfl
      rw [he]
      exact .start ((begins_same shader hv).1 hb)
    | step _ hs ih => exact .step ih ((step_same shader hv hr hred ha ih).1 hs)
  · intro h
    induction h with
    | start hb =>
      have he : (convert shader fn A).entry = fn.entry := by cases shader <;> rfl
      rw [← he]
      exact .start ((begins_same shader hv).2 hb)
    | step hp hs ih => exact .step ih ((step_same shader hv hr hred ha hp).2 hs)

/-- **C70**: a run can go on after just in the ways it could before; in particular no run gets stuck that
did not. -/
theorem steps_kept_partial {V M : Type} (S : Sem V M) (shader : Bool) (fn : Fn) (A : Info)
    (hv : Valid S fn) (hr : Right fn A) (hred : Reducible fn) (ha : SidesApart fn) (l : List Lab)
    (s s' : Config V M) (h : Reach S fn l s) : Step S (convert shader fn A) s s' ↔ Step S fn s s' :=
  step_same shader hv hr hred ha h

/-- Without the capability Shader nothing is done. -/
theorem kernels_kept (fn : Fn) (A : Info) : convert false fn A = fn := rfl

/-- Phis of types that have no select, and phis used by another phi of the block, stay. -/
theorem left_alone (shader : Bool) (fn : Fn) (A : Info) (b : Lab) (φ : Phi) (h : φ ∈ (fn.block b).phis)
    (hφ : φ.tyOk = false ∨ ∃ ψ ∈ (fn.block b).phis, ∃ p, (φ.id, p) ∈ ψ.args) :
    φ ∈ ((convert shader fn A).block b).phis := by
  cases shader with
  | false => exact h
  | true =>
    refine List.mem_filter.2 ⟨h, ?_⟩
    have : converted fn A b φ = none := by
      unfold converted
      split
      · unfold convertPhi
        split
        · rcases hφ with hφ | ⟨ψ, hψ, p, hp⟩
          · simp [hφ]
          · have hu : usersOk (fn.block b) φ = false := by
              rw [usersOk, List.all_eq_false]
              refine ⟨ψ, hψ, ?_⟩
              rw [Bool.not_eq_true, List.all_eq_false]
              exact ⟨_, hp, by simp⟩
            simp [hu]
        · rfl
      · rfl
    simp [this]

/-- A block changes only if it is the end of a selection that is not marked DontFlatten. -/
theorem only_selections (shader : Bool) (fn : Fn) (A : Info) (b : Lab)
    (h : ∀ c, (fn.block c).merge ≠ some (.selection b false)) :
    (convert shader fn A).block b = fn.block b := by
  cases shader with
  | false => rfl
  | true =>
    refine convertBlock_none ?_
    unfold checkBlock
    repeat' split
    all_goals first | rfl | skip
    rename_i c _ _ _ _ _ hm
    exfalso
    unfold Merge.isSelectionTo at hm
    split at hm
    · rename_i m df he
      simp at hm
      exact h _ (by rw [he, hm.1, hm.2])
    · cases hm

/-! ### Small functions, given by all their paths -/

def isPath (fn : Fn) : List Lab → Bool
  | [] => false
  | [a] => a == fn.entry
  | b :: a :: l => (fn.succs a).contains b && isPath fn (a :: l)

theorem isPath_path {fn : Fn} : ∀ {l}, isPath fn l = true → Path fn l
  | [], h => by simp [isPath] at h
  | [a], h => by simp [isPath] at h; subst h; exact .entry
  | b :: a :: l, h => by
    simp only [isPath, Bool.and_eq_true, List.contains_iff_mem] at h
    exact .next (isPath_path h.2) h.1

/-- These are all the paths. -/
def allPaths (fn : Fn) (P : List (List Lab)) : Bool :=
  P.all (isPath fn) && P.contains [fn.entry] &&
  P.all fun l => match l with
    | a :: _ => (fn.succs a).all fun b => P.contains (b :: l)
    | [] => true

theorem allPaths_iff {fn : Fn} {P} (h : allPaths fn P = true) {l} : Path fn l ↔ l ∈ P := by
  simp only [allPaths, Bool.and_eq_true, List.all_eq_true, List.contains_iff_mem] at h
  constructor
  · intro hp
    induction hp with
    | entry => exact h.1.2
    | next _ hs ih =>
      have := h.2 _ ih
      simp only [List.all_eq_true, List.contains_iff_mem] at this
      exact this _ hs
  · intro hl
    exact isPath_path (h.1.1 l hl)

/-- Dominators from all paths. -/
def domOf (P : List (List Lab)) (a b : Lab) : Bool :=
  P.all fun l => l.head? != some b || l.contains a

theorem domOf_iff {fn : Fn} {P} (h : allPaths fn P = true) (a b : Lab) :
    domOf P a b = true ↔ Dominates fn a b := by
  simp only [domOf, List.all_eq_true, Bool.or_eq_true, bne_iff_ne, List.contains_iff_mem]
  constructor
  · intro h' l hp
    rcases h' _ ((allPaths_iff h).1 hp) with h' | h'
    · simp at h'
    · exact h'
  · intro h' l hl
    cases l with
    | nil => left; simp
    | cons c l =>
      by_cases hc : c = b
      · subst hc; exact .inr (h' l ((allPaths_iff h).2 hl))
      · left; simpa using hc

theorem up_walk {fn : Fn} (h : ∀ a, ∀ b ∈ fn.succs a, a < b) {a b l} (hw : Walk fn a b l) :
    a ≤ b ∧ (1 < l.length → a < b) := by
  induction hw with
  | nil => simp
  | next _ hs ih =>
    have := h _ _ hs
    exact ⟨Nat.le_of_lt (Nat.lt_of_le_of_lt ih.1 this), fun _ => Nat.lt_of_le_of_lt ih.1 this⟩

theorem up_reducible {fn : Fn} (h : ∀ a, ∀ b ∈ fn.succs a, a < b) : Reducible fn := by
  intro a l hw hl _
  exact absurd ((up_walk h hw).2 hl) (Nat.lt_irrefl _)

/-! ### A case that meets the hypotheses -/

/-- `if (c) {} else {}`, with a value of the first block and a constant. Ids: 30 condition, 21 constant,
20 in the first block, 10 the phi, 40 a use. -/
def diamond : Fn where
  entry := 0
  labels := [0, 1, 2, 3]
  block
    | 0 => ⟨[], [.op 20 []], some (.selection 3 false), .cond 30 1 2⟩
    | 1 => ⟨[], [], none, .br 3⟩
    | 2 => ⟨[], [], none, .br 3⟩
    | 3 => ⟨[⟨10, true, [(20, 1), (21, 2)]⟩], [.op 40 [10]], none, .multi 0 [] []⟩
    | _ => ⟨[], [], none, .multi 0 [] []⟩

def diamondPaths : List (List Lab) := [[0], [1, 0], [2, 0], [3, 1, 0], [3, 2, 0]]

def diamondInfo : Info where
  dom := domOf diamondPaths
  common a b := if a = 1 ∧ b = 2 then some 0 else none
  defBlock d := if d = 20 then some 0 else if d = 10 ∨ d = 40 then some 3 else none
  sameVn _ _ := false

/-- The meaning used in the examples: 1 is true; memory is a list of outputs. -/
def sem : Sem Nat (List Nat) where
  start d := if d = 30 ∨ d = 31 then some 1 else if d = 21 then some 2 else none
  mem := []
  act _ xs m x m' := x = 1 ∧ m' = xs ++ m
  jump _ _ _ _ := False
  truth v := v != 0

theorem diamond_all : allPaths diamond diamondPaths = true := by decide

theorem diamond_dom (a b : Lab) : domOf diamondPaths a b = true ↔ Dominates diamond a b :=
  domOf_iff diamond_all a b

theorem diamond_up : ∀ a, ∀ b ∈ diamond.succs a, a < b := by
  intro a b h
  simp only [Fn.succs, diamond] at h
  split at h <;> simp [Term.succs] at h
  · rcases h with rfl | rfl <;> decide
  · subst h; decide
  · subst h; decide

theorem diamond_defs : ∀ d b, d ∈ defs (diamond.block b) → diamondInfo.defBlock d = some b := by
  intro d b h
  simp only [diamond] at h
  split at h <;> simp [defs, instId] at h
  · subst h; rfl
  · rcases h with rfl | rfl <;> rfl

theorem diamond_right : Right diamond diamondInfo where
  dom a b _ := diamond_dom a b
  common a b c h := by
    simp only [diamondInfo] at h
    split at h
    · rename_i e
      obtain ⟨rfl, rfl⟩ := e
      cases h
      refine ⟨⟨[0], isPath_path (by decide)⟩, ⟨[0], isPath_path (by decide)⟩,
        (diamond_dom 0 1).1 (by decide), (diamond_dom 0 2).1 (by decide), ?_⟩
      intro d h1 h2
      have e1 := h1 [0] (isPath_path (by decide))
      have e2 := h2 [0] (isPath_path (by decide))
      simp only [List.mem_cons, List.not_mem_nil, or_false] at e1 e2
      rcases e1 with rfl | rfl
      · exact absurd e2 (by decide)
      · exact Dominates.refl _
    · cases h
  defBlock := diamond_defs

theorem diamond_valid : Valid sem diamond where
  entry_phis := rfl
  entry_preds b h := by have := diamond_up b _ h; simp [diamond] at this
  labels b h := by
    simp only [Fn.succs, diamond] at h ⊢
    split at h <;> simp [Term.succs] at h ⊢
  phi_preds b φ h := by
    simp only [diamond] at h
    split at h <;> simp at h
    subst h
    refine ⟨by decide, fun p => ?_⟩
    simp only [Fn.succs, diamond]
    split <;> simp_all [Term.succs]
  phi_nodup b := by
    simp only [diamond]
    split <;> simp
  phi_avail b φ h a ha := by
    simp only [diamond] at h
    split at h <;> simp at h
    subst h
    simp at ha
    rcases ha with rfl | rfl
    · exact .inr ⟨0, by decide, (diamond_dom 0 1).1 (by decide)⟩
    · refine .inl ⟨by decide, fun b hb => ?_⟩
      have := diamond_defs 21 b hb
      simp [diamondInfo] at this
  cond_avail b c t f h := by
    simp only [diamond] at h
    split at h <;> simp at h
    obtain ⟨rfl, rfl, rfl⟩ := h
    refine .inl ⟨by decide, fun b hb => ?_⟩
    have := diamond_defs 30 b hb
    simp [diamondInfo] at this

theorem diamond_apart : SidesApart diamond := by
  intro c x t f b ht hm
  simp only [diamond] at ht
  split at ht <;> simp at ht
  obtain ⟨rfl, rfl, rfl⟩ := ht
  simp [diamond] at hm
  subst hm
  refine ⟨fun _ => ⟨(diamond_dom 0 1).1 (by decide), by decide⟩,
    fun _ => ⟨(diamond_dom 0 2).1 (by decide), by decide⟩, ?_⟩
  have stay : ∀ a x l, (a = 1 ∨ a = 2) → Walk diamond a x l → 3 ∉ l → x = a := by
    intro a x l ha hw
    induction hw with
    | nil => intro _; rfl
    | @next b c l hw hs ih =>
      intro hn
      simp only [List.mem_cons, not_or] at hn
      have e := ih hn.2
      subst e
      rcases ha with rfl | rfl <;> simp [Fn.succs, diamond, Term.succs] at hs <;> exact absurd hs.symm hn.1
  intro x l l' h1 _ h2 h3 _ h4
  have e1 := stay 1 x l (.inl rfl) h1 h2
  have e2 := stay 2 x l' (.inr rfl) h3 h4
  exact absurd (e1.symm.trans e2) (by decide)

/-- The hypotheses of `runs_kept_partial` hold for it, and its phi is converted. -/
example : Valid sem diamond ∧ Right diamond diamondInfo ∧ Reducible diamond ∧ SidesApart diamond ∧
    ((convert true diamond diamondInfo).block 3).phis = [] ∧
    ((convert true diamond diamondInfo).block 3).body = [.select 10 30 20 21, .op 40 [10]] :=
  ⟨diamond_valid, diamond_right, up_reducible diamond_up, diamond_apart, by decide, by decide⟩

/-! ### A side that is shared -/

/-- The false side goes to the true side if 31 holds. Ids: 30 and 31 conditions, 20 and 21
constants. -/
def shared : Fn where
  entry := 0
  labels := [0, 2, 1, 3]
  block
    | 0 => ⟨[], [], some (.selection 3 false), .cond 30 1 2⟩
    | 1 => ⟨[], [], none, .br 3⟩
    | 2 => ⟨[], [], none, .cond 31 1 3⟩
    | 3 => ⟨[⟨10, true, [(20, 1), (21, 2)]⟩], [], none, .multi 0 [] []⟩
    | _ => ⟨[], [], none, .multi 0 [] []⟩

def sharedPaths : List (List Lab) :=
  [[0], [1, 0], [2, 0], [1, 2, 0], [3, 1, 0], [3, 2, 0], [3, 1, 2, 0]]

def sharedInfo : Info where
  dom := domOf sharedPaths
  common a b := if (a = 1 ∧ b = 2) ∨ (a = 2 ∧ b = 1) then some 0 else none
  defBlock d := if d = 10 then some 3 else none
  sameVn _ _ := false

/-- 30 is false, 31 true. -/
def sharedSem : Sem Nat Unit where
  start d := if d = 30 then some 0 else if d = 31 ∨ d = 20 then some 1 else if d = 21 then some 2 else none
  mem := ()
  act _ _ _ _ _ := False
  jump _ _ _ _ := False
  truth v := v != 0

theorem shared_all : allPaths shared sharedPaths = true := by decide

theorem shared_dom (a b : Lab) : domOf sharedPaths a b = true ↔ Dominates shared a b :=
  domOf_iff shared_all a b

theorem shared_defs : ∀ d b, d ∈ defs (shared.block b) → sharedInfo.defBlock d = some b := by
  intro d b h
  simp only [shared] at h
  split at h <;> simp [defs, instId] at h
  subst h; rfl

/-- Ranks of the blocks: 0, 2, 1, 3. -/
theorem shared_reducible : Reducible shared := by
  intro a l hw hl _
  have rank : ∀ a b l, Walk shared a b l →
      (fun x => if x = 1 then 5 else if x = 2 then 4 else if x = 3 then 6 else x) a ≤
        (fun x => if x = 1 then 5 else if x = 2 then 4 else if x = 3 then 6 else x) b ∧
      (1 < l.length → (fun x => if x = 1 then 5 else if x = 2 then 4 else if x = 3 then 6 else x) a <
        (fun x => if x = 1 then 5 else if x = 2 then 4 else if x = 3 then 6 else x) b) := by
    intro a b l hw
    induction hw with
    | nil => simp
    | @next b c l hw hs ih =>
      have key : (fun x => if x = 1 then 5 else if x = 2 then 4 else if x = 3 then 6 else x) b <
          (fun x => if x = 1 then 5 else if x = 2 then 4 else if x = 3 then 6 else x) c := by
        simp only [Fn.succs, shared] at hs
        split at hs <;> simp [Term.succs] at hs
        · rcases hs with rfl | rfl <;> decide
        · subst hs; decide
        · rcases hs with rfl | rfl <;> decide
      exact ⟨Nat.le_of_lt (Nat.lt_of_le_of_lt ih.1 key), fun _ => Nat.lt_of_le_of_lt ih.1 key⟩
  exact absurd ((rank a a l hw).2 hl) (Nat.lt_irrefl _)

theorem shared_right : Right shared sharedInfo where
  dom a b _ := shared_dom a b
  common a b c h := by
    simp only [sharedInfo] at h
    split at h
    · rename_i e
      cases h
      rcases e with ⟨rfl, rfl⟩ | ⟨rfl, rfl⟩
      all_goals
        refine ⟨⟨[0], isPath_path (by decide)⟩, ⟨[0], isPath_path (by decide)⟩,
          (shared_dom 0 _).1 (by decide), (shared_dom 0 _).1 (by decide), ?_⟩
        intro d h1 h2
        have e1 := h1 [0] (isPath_path (by decide))
        have e2 := h2 [0] (isPath_path (by decide))
        simp only [List.mem_cons, List.not_mem_nil, or_false] at e1 e2
        rcases e1 with rfl | rfl
        · exact absurd e2 (by decide)
        · exact Dominates.refl _
    · cases h
  defBlock := shared_defs

theorem shared_const {d : Id} (h : d ≠ 10) (b : Lab) : d ∉ defs (shared.block b) := by
  intro hb
  have := shared_defs d b hb
  simp [sharedInfo, h] at this

theorem shared_valid : Valid sharedSem shared where
  entry_phis := rfl
  entry_preds b h := by
    simp only [Fn.succs, shared] at h
    split at h <;> simp [Term.succs] at h
  labels b h := by
    simp only [Fn.succs, shared] at h ⊢
    split at h <;> simp [Term.succs] at h ⊢
  phi_preds b φ h := by
    simp only [shared] at h
    split at h <;> simp at h
    subst h
    refine ⟨by decide, fun p => ?_⟩
    simp only [Fn.succs, shared]
    split <;> simp_all [Term.succs]
  phi_nodup b := by
    simp only [shared]
    split <;> simp
  phi_avail b φ h a ha := by
    simp only [shared] at h
    split at h <;> simp at h
    subst h
    simp at ha
    rcases ha with rfl | rfl
    · exact .inl ⟨by decide, shared_const (by decide)⟩
    · exact .inl ⟨by decide, shared_const (by decide)⟩
  cond_avail b c t f h := by
    simp only [shared] at h
    split at h <;> simp at h
    · obtain ⟨rfl, rfl, rfl⟩ := h
      exact .inl ⟨by decide, shared_const (by decide)⟩
    · obtain ⟨rfl, rfl, rfl⟩ := h
      exact .inl ⟨by decide, shared_const (by decide)⟩

/-- The run through blocks 0, 2, 1, 3 gives the phi the value 1. -/
theorem shared_run : ∃ l s, Reach sharedSem shared l s ∧ s.block = 3 ∧ s.env 10 = some 1 := by
  have r0 : Reach sharedSem shared [0] ⟨0, sharedSem.start, ()⟩ := .start ⟨rfl, .nil⟩
  have r1 : Reach sharedSem shared [2, 0] ⟨2, phiEnv sharedSem.start 0 [], ()⟩ :=
    .step r0 (.mk (.cond (v := 0) rfl) (by simp [shared, sharedSem]) .nil)
  have r2 : Reach sharedSem shared [1, 2, 0] ⟨1, phiEnv (phiEnv sharedSem.start 0 []) 2 [], ()⟩ :=
    .step r1 (.mk (.cond (v := 1) rfl) (by simp [shared, sharedSem]) .nil)
  have r3 : Reach sharedSem shared [3, 1, 2, 0]
      ⟨3, phiEnv (phiEnv (phiEnv sharedSem.start 0 []) 2 []) 1 (shared.block 3).phis, ()⟩ :=
    .step r2 (.mk .br (by
      intro φ hφ
      simp [shared] at hφ
      subst hφ
      decide) .nil)
  exact ⟨_, _, r3, rfl, rfl⟩

/-- After the pass it is always 2. -/
theorem shared_after {l s} (h : Reach sharedSem (convert true shared sharedInfo) l s) :
    s.env 30 = some 0 ∧ s.env 21 = some 2 ∧ s.env 10 ≠ some 1 := by
  have body : ∀ b, ((convert true shared sharedInfo).block b).phis = [] ∧
      (((convert true shared sharedInfo).block b).body = [] ∨
        ((convert true shared sharedInfo).block b).body = [.select 10 30 20 21]) := by
    intro b
    by_cases h3 : b = 3
    · subst h3; exact ⟨by decide, .inr (by decide)⟩
    · have e : (shared.block b).phis = [] ∧ (shared.block b).body = [] := by
        simp only [shared]
        split <;> simp at h3 ⊢
      have e2 : (convert true shared sharedInfo).block b = convertBlock shared sharedInfo b := rfl
      rw [e2]
      simp [convertBlock, e.1, e.2]
  have exec : ∀ {is e m e' m'}, Exec sharedSem is e m e' m' → (is = [] ∨ is = [.select 10 30 20 21]) →
      (e 30 = some 0 ∧ e 21 = some 2 ∧ e 10 ≠ some 1) →
      e' 30 = some 0 ∧ e' 21 = some 2 ∧ e' 10 ≠ some 1 := by
    intro is e m e' m' hx his he
    rcases his with rfl | rfl
    · cases hx; exact he
    · cases hx with
      | select h1 h2 h3 h4 =>
        cases h4
        rw [he.1] at h1; cases h1
        rw [he.2.1] at h3; cases h3
        simp [define, he.1, he.2.1, sharedSem]
  induction h with
  | start hb =>
    exact exec hb.2 (body _).2 (by decide)
  | step hr hs ih =>
    cases hs with
    | mk hg hp hx =>
      rw [(body _).1] at hx
      exact exec hx (body _).2 (by simpa [phiEnv] using ih)

/-- **C70** does not hold without `SidesApart`: all the other hypotheses are met, a run gives the phi the
value 1, and no run of the function after the pass does. -/
theorem shared_side_wrong : ∃ (S : Sem Nat Unit) (fn : Fn) (A : Info), Valid S fn ∧ Right fn A ∧
    Reducible fn ∧ (∃ l s, Reach S fn l s ∧ s.env 10 = some 1) ∧
    ∀ l s, Reach S (convert true fn A) l s → s.env 10 ≠ some 1 := by
  obtain ⟨l, s, h1, _, h2⟩ := shared_run
  exact ⟨sharedSem, shared, sharedInfo, shared_valid, shared_right, shared_reducible, ⟨l, s, h1, h2⟩,
    fun l s h => (shared_after h).2.2⟩

end Verif.IfConv
