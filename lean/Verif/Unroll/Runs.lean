import Verif.Unroll.Lemmas
/-!
Helper lemmas about runs of loops; no claims.
-/
set_option linter.unusedSimpArgs false
set_option linter.unusedVariables false

namespace Verif.Unroll
open Spec

variable {w : Nat} {σ : Type}

def body (l : Loop w σ) (p : BitVec w × σ) : BitVec w × σ := (l.next p.1, l.post p.1 (l.pre p.1 p.2))

def iter (l : Loop w σ) : Nat → BitVec w × σ → BitVec w × σ
  | 0, p => p
  | n + 1, p => iter l n (body l p)

theorem iter_add (l : Loop w σ) (m n : Nat) (p) : iter l (m + n) p = iter l n (iter l m p) := by
  induction m generalizing p with
  | zero => simp [iter]
  | succ m ih => rw [Nat.succ_add, iter, iter, ih]

theorem iter_at (l : Loop w σ) (s : σ) (k : Nat) : (iter l k (l.init, s)).1 = at_ l k := by
  induction k with
  | zero => rfl
  | succ k ih => rw [iter_add l k 1]; simp [iter, body, at_, ih]

theorem at_bound (l : Loop w σ) (b : BitVec w) (k : Nat) : at_ { l with bound := b } k = at_ l k := by
  induction k with
  | zero => rfl
  | succ k ih => rw [at_, at_, ih]; rfl

theorem iter_bound (l : Loop w σ) (b : BitVec w) (k : Nat) (p) : iter { l with bound := b } k p = iter l k p := by
  induction k generalizing p with
  | zero => rfl
  | succ k ih => rw [iter, iter, ih]; rfl

theorem copies_iter {l : Loop w σ} (hl : l.leaveOnTrue = false) (n : Nat) (p) :
    l.copies n p = (false, iter l n p) := by
  induction n generalizing p with
  | zero => rfl
  | succ n ih =>
    obtain ⟨x, s⟩ := p
    simp only [Loop.copies, hl, Bool.false_eq_true, if_false, iter, body]
    exact ih _

def exit (l : Loop w σ) (p : BitVec w × σ) : BitVec w × σ := (p.1, l.pre p.1 p.2)

theorem runs_iter {l : Loop w σ} (n : Nat) (p)
    (h : ∀ k < n, l.stays (iter l k p).1 = true) (hn : l.stays (iter l n p).1 = false) :
    Runs l p (exit l (iter l n p)) := by
  induction n generalizing p with
  | zero => exact .leave hn
  | succ n ih =>
    refine .again (h 0 (by omega)) ?_
    exact ih (body l p) (fun k hk => h (k + 1) (by omega)) hn

theorem runsBy_iter {l : Loop w σ} (hl : l.leaveOnTrue = false) {f : Nat} (hf : 0 < f) (m : Nat) (p)
    (h : ∀ k < m, l.stays (iter l (k * f) p).1 = true) (hn : l.stays (iter l (m * f) p).1 = false) :
    l.RunsBy f p (exit l (iter l (m * f) p)) := by
  induction m generalizing p with
  | zero => simp only [Nat.zero_mul] at hn ⊢; exact .leave hn
  | succ m ih =>
    have h0 : l.stays p.1 = true := by simpa [iter] using h 0 (by omega)
    have hc : l.copies (f - 1) (body l p) = (false, iter l f p) := by
      rw [copies_iter hl]
      obtain ⟨g, rfl⟩ : ∃ g, f = g + 1 := ⟨f - 1, by omega⟩
      rfl
    have e : ∀ k, iter l ((k + 1) * f) p = iter l (k * f) (iter l f p) := by
      intro k; rw [← iter_add]; congr 1; rw [Nat.succ_mul]; omega
    rw [e]
    refine .again h0 hc (ih _ (fun k hk => ?_) ?_)
    · rw [← e]; exact h (k + 1) (by omega)
    · rw [← e]; exact hn

theorem runs_unique {l : Loop w σ} {p r r'} (h : Runs l p r) (h' : Runs l p r') : r = r' := by
  induction h with
  | leave h1 => cases h' with
    | leave h2 => rfl
    | again h2 _ => rw [h1] at h2; exact absurd h2 (by decide)
  | again h1 _ ih => cases h' with
    | leave h2 => rw [h1] at h2; exact absurd h2 (by decide)
    | again h2 h3 => exact ih h3

theorem runsBy_unique {l : Loop w σ} {f : Nat} {p r r'} (h : l.RunsBy f p r) (h' : l.RunsBy f p r') :
    r = r' := by
  induction h with
  | leave h1 => cases h' with
    | leave h2 => rfl
    | again h2 _ _ => rw [h1] at h2; exact absurd h2 (by decide)
    | inside h2 _ => rw [h1] at h2; exact absurd h2 (by decide)
  | again h1 hc _ ih => cases h' with
    | leave h2 => rw [h1] at h2; exact absurd h2 (by decide)
    | again h2 hc' h3 =>
      rw [hc] at hc'; obtain ⟨_, rfl⟩ := Prod.mk.inj hc'; exact ih h3
    | inside h2 hc' => rw [hc] at hc'; exact absurd (Prod.mk.inj hc').1 (by decide)
  | inside h1 hc => cases h' with
    | leave h2 => rw [h1] at h2; exact absurd h2 (by decide)
    | again h2 hc' h3 => rw [hc] at hc'; exact absurd (Prod.mk.inj hc').1 (by decide)
    | inside h2 hc' => rw [hc] at hc'; exact (Prod.mk.inj hc').2

theorem unrolled_unique {u : Unrolled} {l : Loop w σ} {s : σ} {r r'} (h : u.Runs l s r)
    (h' : u.Runs l s r') : r = r' := by
  cases u with
  | undefined => exact h.elim
  | failed => exact h.elim
  | full n => exact h.symm.trans h'
  | partly f => exact runsBy_unique h h'
  | residual f b =>
    obtain ⟨_, m, h1, h2⟩ := h
    obtain ⟨_, m', h1', h2'⟩ := h'
    have := runsBy_unique h1 h1'
    subst this
    exact runsBy_unique h2 h2'

/-- Two functional relations that agree at one point agree. -/
theorem runs_iff {u : Unrolled} {l : Loop w σ} {s : σ} {q} (h : Runs l (l.init, s) q)
    (h' : u.Runs l s q) (r) : Runs l (l.init, s) r ↔ u.Runs l s r :=
  ⟨fun h1 => runs_unique h h1 ▸ h', fun h1 => unrolled_unique h' h1 ▸ h⟩

end Verif.Unroll
