import Verif.EquivRel.Lemmas
/-!
C49: the fuzzer's equivalence relation.
-/
set_option linter.unusedSimpArgs false
namespace Verif.EquivRel
variable {α : Type} [DecidableEq α]

namespace Spec

/-- The values registered by a history. -/
def registered : List (Op α) → List α
  | [] => []
  | .register v :: os => v :: registered os
  | _ :: os => registered os

/-- The pairs merged by a history. -/
def merged : List (Op α) → List (α × α)
  | [] => []
  | .makeEquivalent a b :: os => (a, b) :: merged os
  | _ :: os => merged os

/-- The least equivalence relation that contains the pairs. -/
inductive Equiv (ps : List (α × α)) : α → α → Prop where
  | pair {a b} : (a, b) ∈ ps → Equiv ps a b
  | refl (a) : Equiv ps a a
  | symm {a b} : Equiv ps a b → Equiv ps b a
  | trans {a b c} : Equiv ps a b → Equiv ps b c → Equiv ps a c

/-- The precondition of a call, given the values registered so far. -/
def Pre (known : List α) : Op α → Prop
  | .register v => v ∉ known
  | .makeEquivalent a b => a ∈ known ∧ b ∈ known
  | .find v => v ∈ known
  | .isEquivalent a b => a ∈ known ∧ b ∈ known
  | .equivalenceClass v => v ∈ known

/-- A history in which each call meets its precondition. -/
def Legal (known : List α) : List (Op α) → Prop
  | [] => True
  | o :: os => Pre known o ∧ Legal (known ++ registered [o]) os

end Spec
open Spec

theorem Spec.Equiv.mono {ps qs : List (α × α)} (h : ∀ p ∈ ps, p ∈ qs) {a b : α} (e : Equiv ps a b) : Equiv qs a b := by
  induction e with
  | pair h' => exact .pair (h _ h')
  | refl => exact .refl _
  | symm _ ih => exact ih.symm
  | trans _ _ i1 i2 => exact i1.trans i2

/-- What holds between a forest and the history that made it. -/
structure Agrees (known : List α) (ps : List (α × α)) (s : State α) : Prop where
  inv : ∃ rank, Inv s rank
  owned : s.owned = known
  pairs : ∀ p ∈ ps, p.1 ∈ known ∧ p.2 ∈ known
  same : ∀ a b, Same s a b ↔ Equiv ps a b ∧ a ∈ known ∧ b ∈ known

theorem Spec.Equiv.known {known : List α} {ps : List (α × α)} (h : ∀ p ∈ ps, p.1 ∈ known ∧ p.2 ∈ known) {a b : α}
    (e : Equiv ps a b) : a = b ∨ (a ∈ known ∧ b ∈ known) := by
  induction e with
  | pair h' => exact Or.inr (h _ h')
  | refl => exact Or.inl rfl
  | symm _ ih =>
    rcases ih with rfl | ⟨h1, h2⟩
    · exact Or.inl rfl
    · exact Or.inr ⟨h2, h1⟩
  | trans _ _ i1 i2 =>
    rcases i1 with rfl | ⟨h1, h2⟩
    · exact i2
    · rcases i2 with rfl | ⟨h3, h4⟩
      · exact Or.inr ⟨h1, h2⟩
      · exact Or.inr ⟨h1, h4⟩

theorem agrees_empty : Agrees (α := α) [] [] State.empty := by
  refine ⟨⟨fun _ => 0, by simp [State.empty], by simp [State.empty], by simp [State.empty], by simp [State.empty],
    by simp [State.empty], by simp [State.empty]⟩, rfl, by simp, ?_⟩
  intro a b
  constructor
  · rintro ⟨r, ⟨_, h⟩, _⟩; simp [State.empty] at h
  · rintro ⟨_, h, _⟩; cases h

theorem agrees_roots {known : List α} {ps : List (α × α)} {s s' : State α} (h : Agrees known ps s)
    {rank : α → Nat} (hI : Inv s' rank) (hS : SameRoots s s') (hO : s'.owned = s.owned) : Agrees known ps s' :=
  ⟨⟨rank, hI⟩, hO.trans h.owned, h.pairs, fun a b => (Same.congr hS a b).symm.trans (h.same a b)⟩

theorem agrees_step {known : List α} {ps : List (α × α)} {s : State α} (h : Agrees known ps s) {o : Op α}
    (hp : Pre known o) : ∃ s', step s o = some s' ∧ Agrees (known ++ registered [o]) (ps ++ merged [o]) s' := by
  obtain ⟨rank, hI⟩ := h.inv
  cases o with
  | register v =>
    have hv : v ∉ s.owned := by rw [h.owned]; exact hp
    obtain ⟨s', h1, h2, h3, h4⟩ := register_spec hI hv
    refine ⟨s', h1, ⟨rank, h2⟩, by simp [registered, h3, h.owned], ?_, ?_⟩
    · intro p hp'
      simp only [merged, List.append_nil] at hp'
      have := h.pairs p hp'
      exact ⟨by simp [this.1], by simp [this.2]⟩
    · intro a b
      simp only [merged, List.append_nil, registered, List.mem_append, List.mem_singleton]
      rw [h4, h.same]
      constructor
      · rintro (⟨e, h1, h2⟩ | ⟨rfl, rfl⟩)
        · exact ⟨e, Or.inl h1, Or.inl h2⟩
        · exact ⟨.refl _, Or.inr rfl, Or.inr rfl⟩
      · rintro ⟨e, h1, h2⟩
        rcases e.known h.pairs with rfl | ⟨k1, k2⟩
        · rcases h1 with h1 | rfl
          · exact Or.inl ⟨e, h1, h1⟩
          · exact Or.inr ⟨rfl, rfl⟩
        · exact Or.inl ⟨e, k1, k2⟩
  | makeEquivalent a b =>
    obtain ⟨ha, hb⟩ := hp
    obtain ⟨s', rank', h1, h2, h3, h4⟩ := makeEquivalent_spec hI (h.owned ▸ ha) (h.owned ▸ hb)
    simp only [registered, merged, List.append_nil]
    refine ⟨s', h1, ⟨rank', h2⟩, h3.trans h.owned, ?_, ?_⟩
    · intro p hp'
      simp only [List.mem_append, List.mem_singleton] at hp'
      rcases hp' with hp' | rfl
      · exact h.pairs p hp'
      · exact ⟨ha, hb⟩
    · have up : ∀ {x y}, Equiv ps x y → Equiv (ps ++ [(a, b)]) x y := fun e => Spec.Equiv.mono (by simp +contextual) e
      have eab : Equiv (ps ++ [(a, b)]) a b := .pair (by simp)
      intro x y
      constructor
      · intro hs
        rw [h4] at hs
        rcases hs with hs | ⟨h1, h2⟩ | ⟨h1, h2⟩
        · obtain ⟨e, k⟩ := (h.same _ _).mp hs
          exact ⟨up e, k⟩
        · obtain ⟨e1, k1, _⟩ := (h.same _ _).mp h1
          obtain ⟨e2, _, k2⟩ := (h.same _ _).mp h2
          exact ⟨((up e1).trans eab).trans (up e2), k1, k2⟩
        · obtain ⟨e1, k1, _⟩ := (h.same _ _).mp h1
          obtain ⟨e2, _, k2⟩ := (h.same _ _).mp h2
          exact ⟨((up e1).trans eab.symm).trans (up e2), k1, k2⟩
      · rintro ⟨e, hx, hy⟩
        -- `Same s'` is an equivalence on known values which contains the pairs
        have hrefl : ∀ z ∈ known, Same s' z z := by
          intro z hz
          obtain ⟨r, hr⟩ := exists_root h2 (x := z) (by rw [h3, h.owned]; exact hz)
          exact ⟨r, hr, hr⟩
        have : ∀ {x y}, Equiv (ps ++ [(a, b)]) x y → x = y ∨ Same s' x y := by
          intro x y e
          induction e with
          | @pair x y hm =>
            right
            simp only [List.mem_append, List.mem_singleton] at hm
            rcases hm with hm | hm
            · rw [h4]
              left
              exact (h.same _ _).mpr ⟨.pair hm, h.pairs _ hm⟩
            · cases hm
              rw [h4]
              right; left
              exact ⟨(h.same _ _).mpr ⟨.refl _, ha, ha⟩, (h.same _ _).mpr ⟨.refl _, hb, hb⟩⟩
          | refl => exact Or.inl rfl
          | symm _ ih =>
            rcases ih with rfl | ⟨r, h1, h2⟩
            · exact Or.inl rfl
            · exact Or.inr ⟨r, h2, h1⟩
          | trans _ _ i1 i2 =>
            rcases i1 with rfl | ⟨r, g1, g2⟩
            · exact i2
            · rcases i2 with rfl | ⟨r', g3, g4⟩
              · exact Or.inr ⟨r, g1, g2⟩
              · have := g2.unique g3
                subst this
                exact Or.inr ⟨_, g1, g4⟩
        rcases this e with rfl | hs
        · exact hrefl _ hx
        · exact hs
  | find v =>
    obtain ⟨r, s', f, _, I, S, O⟩ := find_spec hI (v := v) (h.owned ▸ hp)
    refine ⟨s', by simp [step, f], ?_⟩
    simpa [registered, merged] using agrees_roots h I S O
  | isEquivalent a b =>
    obtain ⟨r, s', f, _, I, S, O⟩ := isEquivalent_spec hI (a := a) (b := b) (h.owned ▸ hp.1) (h.owned ▸ hp.2)
    refine ⟨s', by simp [step, f], ?_⟩
    simpa [registered, merged] using agrees_roots h I S O
  | equivalenceClass v =>
    obtain ⟨l, s', f, _, _, I, S, O⟩ := class_spec hI (v := v) (h.owned ▸ hp)
    refine ⟨s', by simp [step, f], ?_⟩
    simpa [registered, merged] using agrees_roots h I S O

theorem registered_cons (o : Op α) (os : List (Op α)) : registered (o :: os) = registered [o] ++ registered os := by
  cases o <;> rfl

theorem merged_cons (o : Op α) (os : List (Op α)) : merged (o :: os) = merged [o] ++ merged os := by
  cases o <;> rfl

theorem agrees_run {known : List α} {ps : List (α × α)} {s : State α} (h : Agrees known ps s) {os : List (Op α)}
    (hl : Legal known os) : ∃ s', run s os = some s' ∧ Agrees (known ++ registered os) (ps ++ merged os) s' := by
  induction os generalizing known ps s with
  | nil => exact ⟨s, rfl, by simpa [registered, merged] using h⟩
  | cons o os ih =>
    obtain ⟨hp, hl⟩ := hl
    obtain ⟨s1, h1, h2⟩ := agrees_step h hp
    obtain ⟨s2, h3, h4⟩ := ih h2 hl
    refine ⟨s2, by simp [run, h1, h3], ?_⟩
    rw [registered_cons, merged_cons, ← List.append_assoc, ← List.append_assoc]
    exact h4

theorem step_none {s : State α} {rank : α → Nat} (hI : Inv s rank) {o : Op α} (h : ¬ Pre s.owned o) : step s o = none := by
  cases o with
  | register v =>
    simp only [Pre, Decidable.not_not] at h
    simp [step, register, h]
  | makeEquivalent a b => simp only [Pre] at h; simp [step, makeEquivalent, h]
  | find v => simp only [Pre] at h; simp [step, find_none h]
  | isEquivalent a b =>
    simp only [Pre] at h
    simp only [step, isEquivalent]
    by_cases ha : a ∈ s.owned
    · have hb : b ∉ s.owned := fun hb => h ⟨ha, hb⟩
      obtain ⟨r, s1, f, _, _, _, O⟩ := find_spec hI ha
      rw [f]
      simp only
      rw [find_none (O ▸ hb)]
      rfl
    · rw [find_none ha]; rfl
  | equivalenceClass v => simp only [Pre] at h; simp [step, equivalenceClass, h]

/-- C49.  A history of calls, none of which violates its precondition, runs to its end (no loop
    diverges and no assertion fails).  Afterwards, whatever queries were made on the way:
    `IsEquivalent` is the equivalence relation generated by the merged pairs;
    `GetEquivalenceClass` lists exactly the values equivalent to its argument, each once;
    `GetAllKnownValues` lists the registered values; and of each class exactly one member is among
    `GetEquivalenceClassRepresentatives`. -/
theorem equivalence_exact {os : List (Op α)} (h : Legal [] os) :
    ∃ s, run State.empty os = some s ∧ knownValues s = registered os ∧
      (∀ a ∈ registered os, ∀ b ∈ registered os, ∃ r s', isEquivalent s a b = some (r, s') ∧
        (r = true ↔ Equiv (merged os) a b)) ∧
      (∀ a ∈ registered os, ∃ l s', equivalenceClass s a = some (l, s') ∧ l.Nodup ∧
        ∀ b, b ∈ l ↔ Equiv (merged os) a b) ∧
      (∀ a ∈ registered os, ∃ r ∈ representatives s, Equiv (merged os) a r ∧
        (∀ r' ∈ representatives s, Equiv (merged os) a r' → r' = r) ∧ ∃ s', find s a = some (r, s')) ∧
      (representatives s).Nodup := by
  obtain ⟨s, h1, h2⟩ := agrees_run agrees_empty h
  simp only [List.nil_append] at h2
  obtain ⟨rank, hI⟩ := h2.inv
  have hreg : ∀ a, a ∈ registered os ↔ a ∈ s.owned := fun a => by rw [h2.owned]
  refine ⟨s, h1, h2.owned, ?_, ?_, ?_, ?_⟩
  · intro a ha b hb
    obtain ⟨r, s', f, g, _⟩ := isEquivalent_spec hI ((hreg a).mp ha) ((hreg b).mp hb)
    refine ⟨r, s', f, g.trans ((h2.same _ _).trans ?_)⟩
    simp [ha, hb]
  · intro a ha
    obtain ⟨l, s', f, nd, g, _⟩ := class_spec hI ((hreg a).mp ha)
    refine ⟨l, s', f, nd, ?_⟩
    intro b
    rw [g, h2.same]
    constructor
    · exact fun h => h.1
    · intro e
      refine ⟨e, ha, ?_⟩
      rcases e.known h2.pairs with rfl | ⟨_, k⟩
      · exact ha
      · exact k
  · intro a ha
    obtain ⟨r, s', f, hr, _⟩ := find_spec hI ((hreg a).mp ha)
    have hro : r ∈ s.owned := hI.dom _ _ hr.2
    refine ⟨r, ?_, ?_, ?_, s', f⟩
    · exact List.mem_filter.mpr ⟨hro, by simp [hr.2]⟩
    · exact ((h2.same _ _).mp ⟨r, hr, .refl _, hr.2⟩).1
    · intro r' hr' e
      obtain ⟨k1, k2⟩ := List.mem_filter.mp hr'
      simp only [decide_eq_true_eq] at k2
      obtain ⟨q, g1, g2⟩ := (h2.same _ _).mpr ⟨e, ha, (hreg _).mpr k1⟩
      have e1 := g1.unique hr
      have e2 : q = r' := g2.1.of_root k2
      rw [← e2, e1]
  · exact hI.nodup.filter _

/-- A call whose precondition does not hold fails an assertion. -/
theorem precondition_needed {os : List (Op α)} (h : Legal [] os) {o : Op α} (ho : ¬ Pre (registered os) o) :
    run State.empty (os ++ [o]) = none := by
  obtain ⟨s, h1, h2⟩ := agrees_run agrees_empty h
  simp only [List.nil_append] at h2
  obtain ⟨rank, hI⟩ := h2.inv
  have hs : step s o = none := step_none hI (by rw [h2.owned]; exact ho)
  have : ∀ (os : List (Op α)) (s0 : State α), run s0 os = some s → run s0 (os ++ [o]) = none := by
    intro os
    induction os with
    | nil => intro s0 h; cases h; simp [run, hs]
    | cons p os ih =>
      intro s0 h
      simp only [run, List.cons_append] at h ⊢
      cases hp : step s0 p with
      | none => rfl
      | some s1 => rw [hp] at h; exact ih s1 h
  exact this os _ h1

/-- A history with two merges. -/
def exOps : List (Op Nat) :=
  [.register 1, .register 2, .register 3, .register 4, .makeEquivalent 1 2, .find 1, .makeEquivalent 3 1,
    .isEquivalent 3 2]

example : Legal [] exOps ∧ Equiv (merged exOps) 2 3 ∧ ¬ Equiv (merged exOps) 1 4 := by
  refine ⟨by simp [exOps, Legal, Pre, registered], ?_, ?_⟩
  · exact .trans (.symm (.pair (a := 1) (by simp [exOps, merged]))) (.symm (.pair (by simp [exOps, merged])))
  · intro e
    have : ∀ {a b : Nat}, Equiv (merged exOps) a b → (a = 4 ↔ b = 4) := by
      intro a b e
      induction e with
      | pair h =>
        simp only [exOps, merged, List.mem_cons, Prod.mk.injEq, List.not_mem_nil, or_false] at h
        omega
      | refl => exact Iff.rfl
      | symm _ ih => exact ih.symm
      | trans _ _ i j => exact i.trans j
    exact absurd ((this e).mpr rfl) (by decide)

end Verif.EquivRel
