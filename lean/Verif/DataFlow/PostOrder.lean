import Verif.DataFlow.Lemmas

set_option linter.unusedSimpArgs false
set_option linter.unusedVariables false
set_option linter.unusedSectionVars false

namespace Verif.DataFlow

variable {ι : Type} [DecidableEq ι]

open Verif.Cfa.Spec (Reach Before)

namespace Spec

/-- Control flow from block `a` to block `b`. -/
def Flow (C : Cfg ι) (a b : Nat) : Prop := ∃ blk, C a = some blk ∧ b ∈ blk.succs

end Spec

theorem Reach.append {E : Nat → Nat → Prop} {a b c : Nat} (h1 : Reach E a b) (h2 : Reach E b c) :
    Reach E a c := by
  induction h2 with
  | refl => exact h1
  | tail _ h ih => exact Reach.tail ih h

/-- The stack is a path from the entry block to its top. -/
inductive Chain (C : Cfg ι) (entry : Nat) : List Nat → Prop
  | nil : Chain C entry []
  | one : Chain C entry [entry]
  | push {a b rest} : Spec.Flow C a b → Chain C entry (a :: rest) → Chain C entry (b :: a :: rest)

theorem chain_reach {C : Cfg ι} {entry : Nat} {l : List Nat} (h : Chain C entry l) :
    ∀ b rest, l = b :: rest → Reach (Spec.Flow C) entry b ∧ ∀ x ∈ l, Reach (Spec.Flow C) x b := by
  induction h with
  | nil => intro b rest h; cases h
  | one =>
    intro b rest h; cases h
    exact ⟨Reach.refl _, fun x hx => by simp at hx; rw [hx]; exact Reach.refl _⟩
  | @push a b rest hf hc ih =>
    intro b' rest' h; cases h
    obtain ⟨h1, h2⟩ := ih a rest rfl
    refine ⟨Reach.tail h1 hf, fun x hx => ?_⟩
    rcases List.mem_cons.mp hx with rfl | hx
    · exact Reach.refl _
    · exact Reach.tail (h2 x hx) hf

theorem chain_tail {C : Cfg ι} {entry b : Nat} {rest : List Nat} (h : Chain C entry (b :: rest)) :
    Chain C entry rest := by
  cases h with
  | one => exact Chain.nil
  | push _ h => exact h

structure PInv (C : Cfg ι) (entry : Nat) (stack seen order : List Nat) : Prop where
  chain : Chain C entry stack
  snd : stack.Nodup
  ond : order.Nodup
  disj : ∀ x ∈ stack, x ∉ order
  sub : ∀ x ∈ seen, x ∈ stack ∨ x ∈ order
  osub : ∀ x ∈ order, x ∈ seen
  rest : ∀ x ∈ stack.tail, x ∈ seen
  reach : ∀ x ∈ order, Reach (Spec.Flow C) entry x
  closed : ∀ u ∈ order, ∀ v, Spec.Flow C u v →
    (v ∈ stack ∨ v ∈ order) ∧ (Before order v u ∨ Reach (Spec.Flow C) v u)
  start : entry ∈ stack ∨ entry ∈ order

theorem before_append {l : List Nat} {x y : Nat} (h : Before l x y) (t : List Nat) :
    Before (l ++ t) x y := by
  obtain ⟨a, b, c, rfl⟩ := h
  exact ⟨a, b, c ++ t, by simp⟩

theorem before_last {l : List Nat} {x : Nat} (h : x ∈ l) (y : Nat) : Before (l ++ [y]) x y := by
  obtain ⟨a, b, rfl⟩ := List.append_of_mem h
  exact ⟨a, b, [], by simp⟩

/-- Blocks not yet on the stack or finished. -/
def left (all stack order : List Nat) : Nat :=
  (all.filter fun x => decide (x ∉ stack ∧ x ∉ order)).length

theorem left_push {all stack order : List Nat} {s : Nat} (hs : s ∈ all) (h1 : s ∉ stack)
    (h2 : s ∉ order) : left all (s :: stack) order < left all stack order := by
  unfold left
  rw [← List.countP_eq_length_filter, ← List.countP_eq_length_filter]
  induction all with
  | nil => cases hs
  | cons x all ih =>
    have mono : ∀ l : List Nat, l.countP (fun x => decide (x ∉ s :: stack ∧ x ∉ order)) ≤
        l.countP (fun x => decide (x ∉ stack ∧ x ∉ order)) := by
      intro l
      apply List.countP_mono_left
      intro y _ hy
      simp at hy ⊢
      exact ⟨hy.1.2, hy.2⟩
    rw [List.countP_cons, List.countP_cons]
    by_cases hx : x = s
    · subst hx
      have := mono all
      rw [if_neg (by simp), if_pos (by simp [h1, h2])]
      omega
    · have := ih ((List.mem_cons.mp hs).resolve_left (Ne.symm hx))
      have e : decide (x ∉ s :: stack ∧ x ∉ order) = decide (x ∉ stack ∧ x ∉ order) := by
        simp [hx]
      rw [e]; omega

theorem left_pop {all rest order : List Nat} {b : Nat} :
    left all rest (order ++ [b]) ≤ left all (b :: rest) order := by
  unfold left
  rw [← List.countP_eq_length_filter, ← List.countP_eq_length_filter]
  apply List.countP_mono_left
  intro y _ hy
  simp at hy ⊢
  exact ⟨⟨hy.2.2, hy.1⟩, hy.2.1⟩

theorem postOrderLoop_spec (C : Cfg ι) (entry : Nat) (all : List Nat)
    (hall : ∀ x, Reach (Spec.Flow C) entry x → x ∈ all ∧ ∃ blk, C x = some blk)
    (n : Nat) (stack seen order : List Nat) (h : PInv C entry stack seen order)
    (hn : 2 * left all stack order + stack.length ≤ n) :
    ∃ o, postOrderLoop C stack seen order = some o ∧ ∃ seen', PInv C entry [] seen' o := by
  induction n generalizing stack seen order with
  | zero =>
    have : stack = [] := by cases stack <;> simp at hn ⊢
    subst this
    exact ⟨order, by rw [postOrderLoop], seen, h⟩
  | succ n ih =>
    cases stack with
    | nil => exact ⟨order, by rw [postOrderLoop], seen, h⟩
    | cons b rest =>
      obtain ⟨hre, hto⟩ := chain_reach h.chain b rest rfl
      obtain ⟨hb, blk, hblk⟩ := hall b hre
      have hin : ∀ x ∈ b :: seen, x ∈ b :: rest ∨ x ∈ order := by
        intro x hx
        rcases List.mem_cons.mp hx with rfl | hx
        · exact Or.inl List.mem_cons_self
        · exact h.sub x hx
      have hst : ∀ x ∈ b :: rest, x ∈ b :: seen := by
        intro x hx
        rcases List.mem_cons.mp hx with rfl | hx
        · exact List.mem_cons_self
        · exact List.mem_cons_of_mem _ (h.rest x hx)
      rw [postOrderLoop, hblk]
      dsimp only
      cases hf : blk.succs.find? (fun s => s ∉ b :: seen) with
      | some s =>
        dsimp only
        have hs1 : s ∉ b :: seen := by have := List.find?_some hf; simpa using this
        have hs2 : s ∈ blk.succs := List.mem_of_find?_eq_some hf
        have hns : s ∉ b :: rest := fun hx => hs1 (hst s hx)
        have hno : s ∉ order := fun hx => hs1 (List.mem_cons_of_mem _ (h.osub s hx))
        have hfl : Spec.Flow C b s := ⟨blk, hblk, hs2⟩
        have hsall := (hall s (Reach.tail hre hfl)).1
        apply ih
        · refine ⟨Chain.push hfl h.chain, List.nodup_cons.mpr ⟨hns, h.snd⟩, h.ond, ?_, ?_, ?_, ?_,
            h.reach, ?_, ?_⟩
          · intro x hx
            rcases List.mem_cons.mp hx with rfl | hx
            · exact hno
            · exact h.disj x hx
          · intro x hx
            exact (hin x hx).imp (List.mem_cons_of_mem _) id
          · intro x hx; exact List.mem_cons_of_mem _ (h.osub x hx)
          · intro x hx; exact hst x hx
          · intro u hu v hv
            obtain ⟨h1, h2⟩ := h.closed u hu v hv
            exact ⟨h1.imp (List.mem_cons_of_mem _) id, h2⟩
          · exact h.start.imp (List.mem_cons_of_mem _) id
        · have := left_push hsall hns hno
          simp only [List.length_cons] at hn ⊢
          omega
      | none =>
        dsimp only
        have hall' : ∀ s ∈ blk.succs, s ∈ b :: seen := by
          intro s hs
          have := List.find?_eq_none.mp hf s hs
          exact Decidable.of_not_not (by simpa only [decide_eq_true_eq] using this)
        have hbo : b ∉ order := h.disj b List.mem_cons_self
        have hbr : b ∉ rest := (List.nodup_cons.mp h.snd).1
        apply ih
        · refine ⟨chain_tail h.chain, (List.nodup_cons.mp h.snd).2, ?_, ?_, ?_, ?_, ?_, ?_, ?_, ?_⟩
          · rw [List.nodup_append]
            refine ⟨h.ond, by simp, ?_⟩
            intro x hx y hy e
            simp only [List.mem_singleton] at hy
            subst e; subst hy; exact hbo hx
          · intro x hx
            simp only [List.mem_append, List.mem_singleton, not_or]
            exact ⟨h.disj x (List.mem_cons_of_mem _ hx), fun e => hbr (e ▸ hx)⟩
          · intro x hx
            rcases hin x hx with h' | h'
            · rcases List.mem_cons.mp h' with rfl | h'
              · exact Or.inr (by simp)
              · exact Or.inl h'
            · exact Or.inr (List.mem_append_left _ h')
          · intro x hx
            rcases List.mem_append.mp hx with hx | hx
            · exact List.mem_cons_of_mem _ (h.osub x hx)
            · simp only [List.mem_singleton] at hx; subst hx; exact List.mem_cons_self
          · intro x hx
            exact hst x (List.mem_cons_of_mem _ (List.mem_of_mem_tail hx))
          · intro x hx
            rcases List.mem_append.mp hx with hx | hx
            · exact h.reach x hx
            · simp only [List.mem_singleton] at hx; subst hx; exact hre
          · intro u hu v hv
            rcases List.mem_append.mp hu with hu | hu
            · obtain ⟨h1, h2⟩ := h.closed u hu v hv
              refine ⟨?_, h2.imp (fun h' => before_append h' _) id⟩
              rcases h1 with h1 | h1
              · rcases List.mem_cons.mp h1 with rfl | h1
                · exact Or.inr (by simp)
                · exact Or.inl h1
              · exact Or.inr (List.mem_append_left _ h1)
            · simp only [List.mem_singleton] at hu
              subst hu
              obtain ⟨blk', hb1, hb2⟩ := hv
              rw [hblk] at hb1; cases hb1
              have hvs := hin v (hall' v hb2)
              constructor
              · rcases hvs with h1 | h1
                · rcases List.mem_cons.mp h1 with rfl | h1
                  · exact Or.inr (by simp)
                  · exact Or.inl h1
                · exact Or.inr (List.mem_append_left _ h1)
              · rcases hvs with h1 | h1
                · exact Or.inr (hto v h1)
                · exact Or.inl (before_last h1 _)
          · rcases h.start with h1 | h1
            · rcases List.mem_cons.mp h1 with h1 | h1
              · exact Or.inr (by simp [h1])
              · exact Or.inl h1
            · exact Or.inr (List.mem_append_left _ h1)
        · have := left_pop (all := all) (rest := rest) (order := order) (b := b)
          simp only [List.length_cons] at hn
          omega

end Verif.DataFlow
