import Verif.Unroll.Runs
/-!
# Loop unrolling: property theorems (C55, C56)
-/
set_option linter.unusedSimpArgs false
set_option linter.unusedVariables false

namespace Verif.Unroll
open Spec

variable {w : Nat} {σ : Type}

/-- What a found number of iterations says about the numbers. -/
theorem found_numbers {c : Counter} {l : Loop w σ} {cb ci cs : IntConst} {n : Nat} {st it : Int}
    (h : Describes c l cb ci cs) (hb : SameSign l.signed cb l.bound) (hi : SameSign l.signed ci l.init)
    (hf : StepFits cs l.step) (hy : findIterations c = .yes n st it) :
    it = num l.signed l.init ∧ st = delta cs l ∧ 0 < n ∧ delta cs l ≠ 0 ∧
      (0 < delta cs l ↔ upward l.rel) ∧
      (∀ k : Int, k < n → relNum l.rel (num l.signed l.init + k * delta cs l) (num l.signed l.bound)) ∧
      (∀ k : Int, n ≤ k →
        ¬ relNum l.rel (num l.signed l.init + k * delta cs l) (num l.signed l.bound)) := by
  unfold findIterations at hy
  simp only [h.bound, h.init, h.step, h.sub, h.rel] at hy
  have hbw : ¬ cb.width > 64 := by
    have := h.boundBits.1; have := h.width; omega
  rw [if_neg hbw, value_eq h.width h.boundBits hb, value_eq h.width h.initBits hi,
    step_eq h.width h.stepBits h.stepConst hf] at hy
  rw [show (if l.sub = true then -num cs.signed l.step else num cs.signed l.step) = delta cs l from rfl] at hy
  split at hy
  · exact absurd hy (by simp)
  rename_i m hg
  split at hy
  · exact absurd hy (by simp)
  rename_i hm
  simp only [Found.yes.injEq] at hy
  obtain ⟨rfl, rfl, rfl⟩ := hy
  obtain ⟨h1, h2, h3, h4⟩ := getIterations_spec hg (by omega)
  have e : ((m.toNat : Nat) : Int) = m := by omega
  rw [e]
  exact ⟨rfl, rfl, by omega, h1, h2, h3, h4⟩

/-- C55. The number of iterations that is found is the number of times the loop goes around
exactly when the induction variable does not wrap around at its last step. For counters of 8 to 32
bits and of 64 bits, every condition, every step, every bound and every initial value, provided the
constants are read as the numbers the comparison takes them for, the step has 32 bits, and the loop is
left when the condition is false. The step and the initial value reported are those of the
loop, and the loop goes around at least as often as reported. -/
theorem iterations_exact_partial {c : Counter} {l : Loop w σ} {cb ci cs : IntConst} {n : Nat} {st it : Int}
    (h : Describes c l cb ci cs) (hb : SameSign l.signed cb l.bound) (hi : SameSign l.signed ci l.init)
    (hf : StepFits cs l.step) (hl : l.leaveOnTrue = false) (hy : findIterations c = .yes n st it) :
    it = num l.signed l.init ∧ st = delta cs l ∧ 0 < n ∧
      (∀ k < n, l.stays (at_ l k) = true) ∧
      (Trips l n ↔ InRange l.signed w (num l.signed l.init + n * delta cs l)) := by
  obtain ⟨h1, h2, h3, h4, h5, h6, h7⟩ := found_numbers h hb hi hf hy
  obtain ⟨h8, h9⟩ := trips_core h.width.1 hl h3 h4 h5 h6 h7
  exact ⟨h1, h2, h3, h8, h9⟩

theorem getIterations_pos {r : Rel} {b i s m : Int} {n : Nat} (hg : getIterations r b i s = some m)
    (h0 : relNum r i b) (hn : ¬ relNum r (i + n * s) b) : 0 < m := by
  have hs : s ≠ 0 := by
    intro e; subst e; simp only [Int.mul_zero, Int.add_zero] at hn; exact hn h0
  have hsp : 0 < s → 0 ≤ (n : Int) * s := fun h => Int.mul_nonneg (by omega) (by omega)
  have hsn : s < 0 → (n : Int) * s ≤ 0 := fun h => Int.mul_nonpos_of_nonneg_of_nonpos (by omega) (by omega)
  unfold getIterations at hg
  rw [if_neg hs] at hg
  cases r <;> simp only [relNum] at h0 hn hg <;> rw [if_neg (by omega)] at hg <;>
    rw [Option.bind_eq_some_iff] at hg <;> obtain ⟨d, hd, hg⟩ := hg
  · unfold i64 at hd; split at hd <;> simp at hd
    rw [if_neg (by omega)] at hg; simp at hg
    have := (divideUp_spec (d := d) (s := s) (by omega) hs).1; omega
  · unfold i64 at hd; split at hd <;> simp at hd
    rw [if_neg (by omega)] at hg; simp at hg
    have := (divideUp_spec (d := d) (s := s) (by omega) hs).1; omega
  · rw [Option.bind_eq_some_iff] at hg
    obtain ⟨d', hd', hg⟩ := hg
    unfold i64 at hd hd'; split at hd <;> simp at hd; split at hd' <;> simp at hd'
    rw [if_neg (by omega)] at hg; simp at hg
    have := (divideUp_spec (d := d') (s := s) (by omega) hs).1; omega
  · rw [Option.bind_eq_some_iff] at hg
    obtain ⟨d', hd', hg⟩ := hg
    unfold i64 at hd hd'; split at hd <;> simp at hd; split at hd' <;> simp at hd'
    rw [if_neg (by omega)] at hg; simp at hg
    have := (divideUp_spec (d := d') (s := s) (by omega) hs).1; omega

theorem getIterations_defined {r : Rel} {b i s : Int} (hb : -2 ^ 32 ≤ b ∧ b < 2 ^ 32)
    (hi : -2 ^ 32 ≤ i ∧ i < 2 ^ 32) : getIterations r b i s ≠ none := by
  have hd : ∀ v : Int, -2 ^ 40 ≤ v → v < 2 ^ 40 → i64 v = some v := by
    intro v h1 h2; unfold i64; rw [if_pos (by omega)]
  unfold getIterations
  split
  · simp
  · cases r <;> simp only <;> split <;> try (simp; done)
    · rw [hd _ (by omega) (by omega), Option.bind_some]; split <;> simp
    · rw [hd _ (by omega) (by omega), Option.bind_some]; split <;> simp
    · rw [hd _ (by omega) (by omega), Option.bind_some, hd _ (by omega) (by omega), Option.bind_some]
      split <;> simp
    · rw [hd _ (by omega) (by omega), Option.bind_some, hd _ (by omega) (by omega), Option.bind_some]
      split <;> simp

/-- C55. A loop of at most 32 bits that goes around `n` times, at least once, without its induction
variable wrapping around, is found to do so. -/
theorem iterations_found {c : Counter} {l : Loop w σ} {cb ci cs : IntConst} {n : Nat}
    (h : Describes c l cb ci cs) (h32 : w ≤ 32)
    (hb : SameSign l.signed cb l.bound) (hi : SameSign l.signed ci l.init)
    (hl : l.leaveOnTrue = false) (hn : 0 < n) (ht : Trips l n)
    (hr : InRange l.signed w (num l.signed l.init + n * delta cs l)) :
    findIterations c = .yes n (delta cs l) (num l.signed l.init) := by
  have hf : StepFits cs l.step := Or.inl h32
  have hpw : (2 : Int) ^ w ≤ 2 ^ 32 := by
    have := Nat.pow_le_pow_right (show 0 < 2 by omega) h32
    exact_mod_cast this
  have hpw' : (2 : Int) ^ (w - 1) ≤ 2 ^ 32 := by
    have := Nat.pow_le_pow_right (show 0 < 2 by omega) (show w - 1 ≤ 32 by omega)
    exact_mod_cast this
  have small : ∀ x : BitVec w, -2 ^ 32 ≤ num l.signed x ∧ num l.signed x < 2 ^ 32 := by
    intro x
    have := num_inRange h.width.1 l.signed x
    unfold InRange at this
    split at this <;> omega
  have hst : ∀ k ≤ n, l.stays (at_ l k) = true ↔
      relNum l.rel (num l.signed l.init + k * delta cs l) (num l.signed l.bound) := by
    intro k hk
    rw [stays_iff hl, at_eq cs l l.signed k, num_ofInt h.width.1]
    have hi0 := num_inRange h.width.1 l.signed l.init
    by_cases hp : 0 ≤ delta cs l
    · refine range_convex hi0 hr ?_ ?_
      · have := Int.mul_nonneg (show (0 : Int) ≤ k by omega) hp; omega
      · have := Int.mul_le_mul_of_nonneg_right (show (k : Int) ≤ n by omega) hp; omega
    · refine range_convex hr hi0 ?_ ?_
      · have := Int.mul_le_mul_of_nonpos_right (show (k : Int) ≤ n by omega) (show delta cs l ≤ 0 by omega)
        omega
      · have := Int.mul_nonpos_of_nonneg_of_nonpos (show (0 : Int) ≤ k by omega)
          (show delta cs l ≤ 0 by omega)
        omega
  have h0 : relNum l.rel (num l.signed l.init) (num l.signed l.bound) := by
    have := (hst 0 (by omega)).1 (ht.1 0 hn); simpa using this
  have hnn : ¬ relNum l.rel (num l.signed l.init + n * delta cs l) (num l.signed l.bound) := by
    intro e; rw [← hst n (Nat.le_refl n), ht.2] at e; exact absurd e (by decide)
  have hd := getIterations_defined (r := l.rel) (s := delta cs l) (small l.bound) (small l.init)
  obtain ⟨m, hm⟩ := Option.ne_none_iff_exists'.1 hd
  have hmp := getIterations_pos hm h0 hnn
  obtain ⟨_, _, g1, g2⟩ := getIterations_spec hm hmp
  have hmn : m = n := by
    have a1 : ¬ m < n := by
      intro hlt
      have hk : l.stays (at_ l m.toNat) = true := ht.1 m.toNat (by omega)
      rw [hst m.toNat (by omega)] at hk
      exact g2 m (Int.le_refl m) (by rw [show ((m.toNat : Nat) : Int) = m by omega] at hk; exact hk)
    have a2 : ¬ (n : Int) < m := fun hlt => hnn (g1 n hlt)
    omega
  unfold findIterations
  simp only [h.bound, h.init, h.step, h.sub, h.rel]
  have hbw : ¬ cb.width > 64 := by
    have := h.boundBits.1; have := h.width; omega
  rw [if_neg hbw, value_eq h.width h.boundBits hb, value_eq h.width h.initBits hi,
    step_eq h.width h.stepBits h.stepConst hf,
    show (if l.sub = true then -num cs.signed l.step else num cs.signed l.step) = delta cs l from rfl, hm]
  simp only []
  rw [if_neg (by omega), hmn]
  simp

/-! ## Unrolling -/

/-- The new bound of the residual loop. -/
theorem residual_bits {rel : Rel} {i s : Int} {n f : Nat} {v : Int}
    (hv : v = i + ((n % f : Nat) : Int) * s) (hr : -2 ^ 62 ≤ v ∧ v < 2 ^ 62) :
    residualValue rel i s n f =
      some (match rel with | .ge => v - 1 | .le => v + 1 | .lt | .gt => v) := by
  have e : (BitVec.ofInt 64 i + BitVec.ofNat 64 (n % f) * BitVec.ofInt 64 s).toInt = v := by
    have : BitVec.ofNat 64 (n % f) = BitVec.ofInt 64 ((n % f : Nat) : Int) := by rw [BitVec.ofInt_natCast]
    rw [this, ← BitVec.ofInt_mul, ← BitVec.ofInt_add, ← hv, BitVec.toInt_ofInt]
    apply Int.bmod_eq_of_le <;> omega
  unfold residualValue
  cases rel <;> simp only [e]
  · unfold i64; rw [if_pos (by omega)]
  · unfold i64; rw [if_pos (by omega)]

/-- Conditions under which unrolling is right: the number of iterations is right (the induction
variable does not wrap), or the loop is left at once. -/
def Fits (c : Counter) (cs : IntConst) (l : Loop w σ) : Prop :=
  ∀ n st it, findIterations c = .yes n st it → l.leaveOnTrue = true ∨
    InRange l.signed w (num l.signed l.init + n * delta cs l)

/-- C56. Unrolling a loop, completely or by any factor, leaves its effect unchanged: from every
state the new code comes to the same induction value and the same state. For every loop body. Conditions:
the code before the decision to leave has no effect; the induction variable does not wrap around;
constants are read as the comparison takes them; and where a residual loop is made, the
comparison is strict and the counter has 32 bits. -/
theorem unroll_right_partial {c : Counter} {l : Loop w σ} {cb ci cs : IntConst} {u : Unrolled}
    (h : Describes c l cb ci cs) (hb : SameSign l.signed cb l.bound) (hi : SameSign l.signed ci l.init)
    (hf : StepFits cs l.step) (hfit : Fits c cs l) (hpre : ∀ x s, l.pre x s = s)
    (hu : u = fullyUnroll c ∨ ∃ factor, u = partiallyUnroll c factor)
    (hdone : u ≠ .failed ∧ u ≠ .undefined)
    (hres : ∀ f b, u = .residual f b → w = 32 ∧ (l.rel = .lt ∨ l.rel = .gt)) (s : σ) (r : BitVec w × σ) :
    Runs l (l.init, s) r ↔ u.Runs l s r := by
  have hex : ∀ p : BitVec w × σ, exit l p = p := by intro p; simp [exit, hpre]
  have hw := h.width.1
  -- the number of iterations
  obtain ⟨n, st, it, hy, hcase⟩ : ∃ n st it, findIterations c = .yes n st it ∧
      (u = .full n ∨ ∃ f, 1 < f ∧ f < n ∧
        ((n % f = 0 ∧ u = .partly f) ∨
         (n % f ≠ 0 ∧ ∃ v, residualValue l.rel it st n f = some v ∧ u = .residual f (BitVec.ofInt 32 v)))) := by
    rcases hu with hu | ⟨factor, hu⟩
    · unfold fullyUnroll at hu
      split at hu
      · exact absurd hu hdone.2
      · exact absurd hu hdone.1
      · rename_i n st it hy
        exact ⟨n, st, it, hy, Or.inl hu⟩
    · unfold partiallyUnroll at hu
      split at hu
      · exact absurd hu hdone.1
      split at hu
      · exact absurd hu hdone.2
      · exact absurd hu hdone.1
      · rename_i h1 n st it hy
        refine ⟨n, st, it, hy, ?_⟩
        split at hu
        · exact Or.inl hu
        split at hu
        · exact absurd hu hdone.2
        split at hu
        · rename_i hne
          split at hu
          · exact absurd hu hdone.2
          · rename_i v hv
            rw [h.rel] at hv
            exact Or.inr ⟨factor, by omega, by omega, Or.inr ⟨hne, v, hv, hu⟩⟩
        · rename_i hne
          exact Or.inr ⟨factor, by omega, by omega, Or.inl ⟨by omega, hu⟩⟩
  obtain ⟨hit, hst, hn, hs0, hup, g1, g2⟩ := found_numbers h hb hi hf hy
  subst hit hst
  have hir := num_inRange hw l.signed l.init
  have hbr := num_inRange hw l.signed l.bound
  -- the residual loop's bound
  have hbound : ∀ f v, 1 < f → f < n → w = 32 → (l.rel = .lt ∨ l.rel = .gt) →
      residualValue l.rel (num l.signed l.init) (delta cs l) n f = some v →
      v = num l.signed l.init + ((n % f : Nat) : Int) * delta cs l ∧ InRange l.signed w v := by
    intro f v hf1 hfn h32 hrel hv
    have hmod : n % f < n := Nat.lt_of_lt_of_le (Nat.mod_lt _ (by omega)) (by omega)
    have hin := inRange_before hir hbr hup hs0 g1 hmod
    have hsm : -2 ^ 62 ≤ num l.signed l.init + ((n % f : Nat) : Int) * delta cs l ∧
        num l.signed l.init + ((n % f : Nat) : Int) * delta cs l < 2 ^ 62 := by
      subst h32
      unfold InRange at hin
      split at hin <;> omega
    rw [residual_bits rfl hsm] at hv
    rcases hrel with e | e <;> rw [e] at hv <;> simp at hv <;> subst hv <;> exact ⟨rfl, hin⟩
  cases hl : l.leaveOnTrue with
  | true =>
    have h0 : compare l.rel l.signed l.init l.bound = true := by
      rw [compare_iff]; have := g1 0 (by omega); simpa using this
    have hstay : l.stays l.init = false := by simp [Loop.stays, h0, hl]
    have hrun : Runs l (l.init, s) (l.init, s) := by
      have := Runs.leave (l := l) (s := s) hstay; rwa [hpre] at this
    have hby : ∀ f, l.RunsBy f (l.init, s) (l.init, s) := by
      intro f
      have := Loop.RunsBy.leave (l := l) (f := f) (s := s) hstay; rwa [hpre] at this
    refine runs_iff hrun ?_ r
    rcases hcase with hu | ⟨f, hf1, hfn, ⟨_, hu⟩ | ⟨hne, v, hv, hu⟩⟩
    · subst hu
      obtain ⟨m, rfl⟩ : ∃ m, n = m + 1 := ⟨n - 1, by omega⟩
      simp [Unrolled.Runs, Loop.copies, hl, hpre]
    · subst hu; exact hby f
    · obtain ⟨h32, hrel⟩ := hres f _ hu
      obtain ⟨hv1, hv2⟩ := hbound f v hf1 hfn h32 hrel hv
      subst hu
      refine ⟨h32, (l.init, s), ?_, hby f⟩
      have hbits : num l.signed ((BitVec.ofInt 32 v).setWidth w) = v := by
        have e : (BitVec.ofInt 32 v).setWidth w = BitVec.ofInt w v := by subst h32; simp
        rw [e]; exact num_ofInt hw _ _ hv2
      have hst' : ({ l with bound := (BitVec.ofInt 32 v).setWidth w } : Loop w σ).stays l.init = false := by
        have : compare l.rel l.signed l.init ((BitVec.ofInt 32 v).setWidth w) = true := by
          rw [compare_iff, hbits]
          have hm1 : (1 : Int) ≤ ((n % f : Nat) : Int) := by omega
          rcases hrel with e | e
          · rw [e] at hup ⊢
            have hp : 0 < delta cs l := hup.2 trivial
            have := Int.mul_le_mul_of_nonneg_right hm1 (show 0 ≤ delta cs l by omega)
            simp only [relNum]; omega
          · rw [e] at hup ⊢
            have hp : ¬ 0 < delta cs l := fun x => hup.1 x
            have := Int.mul_le_mul_of_nonpos_right hm1 (show delta cs l ≤ 0 by omega)
            simp only [relNum]; omega
        simp [Loop.stays, this, hl]
      have := Loop.RunsBy.leave (l := { l with bound := (BitVec.ofInt 32 v).setWidth w }) (f := 1) (s := s) hst'
      simp only [hpre] at this
      exact this
  | false =>
    have hr := (hfit n _ _ hy).resolve_left (by simp [hl])
    obtain ⟨hall, htrip⟩ := trips_core hw hl hn hs0 hup g1 g2
    have ht := htrip.2 hr
    have hrun : Runs l (l.init, s) (iter l n (l.init, s)) := by
      have := runs_iter (l := l) n (l.init, s) (fun k hk => by rw [iter_at]; exact ht.1 k hk)
        (by rw [iter_at]; exact ht.2)
      rwa [hex] at this
    refine runs_iff hrun ?_ r
    rcases hcase with hu | ⟨f, hf1, hfn, ⟨hz, hu⟩ | ⟨hne, v, hv, hu⟩⟩
    · subst hu
      simp [Unrolled.Runs, copies_iter hl]
    · subst hu
      have hmul : n / f * f = n := by have := Nat.div_add_mod n f; rw [Nat.mul_comm] at this; omega
      have := runsBy_iter (l := l) hl (show 0 < f by omega) (n / f) (l.init, s)
        (fun k hk => by
          rw [iter_at]; refine ht.1 _ ?_
          have : (k + 1) * f ≤ n / f * f := Nat.mul_le_mul_right f hk
          rw [Nat.succ_mul] at this; omega)
        (by rw [iter_at, hmul]; exact ht.2)
      rw [hmul, hex] at this
      exact this
    · obtain ⟨h32, hrel⟩ := hres f _ hu
      obtain ⟨hv1, hv2⟩ := hbound f v hf1 hfn h32 hrel hv
      subst hu
      have hbits : num l.signed ((BitVec.ofInt 32 v).setWidth w) = v := by
        have e : (BitVec.ofInt 32 v).setWidth w = BitVec.ofInt w v := by subst h32; simp
        rw [e]; exact num_ofInt hw _ _ hv2
      have hmod : n % f < n := Nat.lt_of_lt_of_le (Nat.mod_lt _ (by omega)) (by omega)
      -- the first loop
      have hst' : ∀ k ≤ n % f,
          ({ l with bound := (BitVec.ofInt 32 v).setWidth w } : Loop w σ).stays (at_ l k) = decide (k < n % f) := by
        intro k hk
        have hkr : InRange l.signed w (num l.signed l.init + (k : Int) * delta cs l) :=
          inRange_before hir hbr hup hs0 g1 (Nat.lt_of_le_of_lt hk hmod)
        have : compare l.rel l.signed (at_ l k) ((BitVec.ofInt 32 v).setWidth w) = true ↔ k < n % f := by
          rw [compare_iff, hbits, at_eq cs l l.signed k, num_ofInt hw _ _ hkr, hv1]
          rcases hrel with e | e
          · rw [e] at hup ⊢
            have hp : 0 < delta cs l := hup.2 trivial
            simp only [relNum]
            constructor
            · intro hlt
              have : k ≠ n % f := by rintro rfl; omega
              omega
            · intro hlt
              have := Int.mul_lt_mul_of_pos_right (show (k : Int) < ((n % f : Nat) : Int) by omega) hp
              omega
          · rw [e] at hup ⊢
            have hp : delta cs l < 0 := by
              have : ¬ 0 < delta cs l := fun x => hup.1 x
              omega
            simp only [relNum]
            constructor
            · intro hlt
              have : k ≠ n % f := by rintro rfl; omega
              omega
            · intro hlt
              have := Int.mul_lt_mul_of_neg_right (show (k : Int) < ((n % f : Nat) : Int) by omega) hp
              omega
        simp only [Loop.stays, hl, Bool.bne_false]
        rw [Bool.eq_iff_iff, this]; simp
      have hfirst := runsBy_iter (l := { l with bound := (BitVec.ofInt 32 v).setWidth w }) hl
        (show 0 < 1 by omega) (n % f) (l.init, s)
        (fun k hk => by
          rw [iter_bound, iter_at, Nat.mul_one, hst' k (by omega)]; simp [hk])
        (by rw [iter_bound, iter_at, Nat.mul_one, hst' _ (Nat.le_refl _)]; simp)
      rw [Nat.mul_one, iter_bound] at hfirst
      have hfirst' : ({ l with bound := (BitVec.ofInt 32 v).setWidth w } : Loop w σ).RunsBy 1 (l.init, s)
          (iter l (n % f) (l.init, s)) := by
        simpa [exit, hpre] using hfirst
      have hsum : n % f + n / f * f = n := by
        have := Nat.div_add_mod n f; rw [Nat.mul_comm] at this; omega
      have hsecond := runsBy_iter (l := l) hl (show 0 < f by omega) (n / f) (iter l (n % f) (l.init, s))
        (fun k hk => by
          rw [← iter_add, iter_at]; refine ht.1 _ ?_
          have : (k + 1) * f ≤ n / f * f := Nat.mul_le_mul_right f hk
          rw [Nat.succ_mul] at this; omega)
        (by rw [← iter_add, iter_at, hsum]; exact ht.2)
      rw [← iter_add, hsum, hex] at hsecond
      exact ⟨h32, _, hfirst', hsecond⟩

/-- C56, where the code is wrong: with a comparison that includes equality the residual loop runs at
least once more than it should, whatever the loop: after the `n % factor` iterations meant for it
it still goes on. -/
theorem residual_too_long {l : Loop 32 σ} {c : Counter} {cb ci cs : IntConst} {f : Nat} {b : Word}
    {n : Nat} {st it : Int}
    (h : Describes c l cb ci cs) (hb : SameSign l.signed cb l.bound) (hi : SameSign l.signed ci l.init)
    (hl : l.leaveOnTrue = false) (hy : findIterations c = .yes n st it)
    (hr : InRange l.signed 32 (num l.signed l.init + n * delta cs l))
    (hrel : l.rel = .le ∨ l.rel = .ge) {factor : Nat} (hu : partiallyUnroll c factor = .residual f b) :
    f = factor ∧ ∀ k ≤ n % factor, ({ l with bound := b } : Loop 32 σ).stays (at_ l k) = true := by
  have hf : StepFits cs l.step := Or.inl (by omega)
  obtain ⟨hit, hst, hn, hs0, hup, g1, g2⟩ := found_numbers h hb hi hf hy
  subst hit hst
  have hw : 0 < 32 := by omega
  have hir := num_inRange hw l.signed l.init
  have hbr := num_inRange hw l.signed l.bound
  unfold partiallyUnroll at hu
  split at hu
  · exact absurd hu (by simp)
  rw [hy] at hu
  simp only at hu
  split at hu
  · exact absurd hu (by simp)
  split at hu
  · exact absurd hu (by simp)
  split at hu
  · rename_i h1 h2 h3 h4
    have hmod : n % factor < n := Nat.lt_of_lt_of_le (Nat.mod_lt _ (by omega)) (by omega)
    have hin := inRange_before hir hbr hup hs0 g1 hmod
    have hsm : -2 ^ 62 ≤ num l.signed l.init + ((n % factor : Nat) : Int) * delta cs l ∧
        num l.signed l.init + ((n % factor : Nat) : Int) * delta cs l < 2 ^ 62 := by
      unfold InRange at hin
      split at hin <;> omega
    rw [h.rel, residual_bits rfl hsm] at hu
    have g1' := g1 ((n % factor : Nat) : Int) (by omega)
    have g2' := g2 n (by omega)
    refine ⟨?_, fun k hk => ?_⟩
    · rcases hrel with e | e <;> rw [e] at hu <;> simp at hu <;> exact hu.1.symm
    have hkr : InRange l.signed 32 (num l.signed l.init + (k : Int) * delta cs l) :=
      inRange_before hir hbr hup hs0 g1 (Nat.lt_of_le_of_lt hk hmod)
    have hkr' : l.signed = l.signed := rfl
    simp only [Loop.stays, hl, Bool.bne_false]
    rw [compare_iff, at_eq cs l l.signed k, num_ofInt hw _ _ hkr]
    rcases hrel with e | e
    · rw [e] at hu hup g1' g2' ⊢
      simp only [Unrolled.residual.injEq, relNum] at hu g1' g2' ⊢
      have hp : 0 < delta cs l := hup.2 trivial
      have hnew : InRange l.signed 32
          (num l.signed l.init + ((n % factor : Nat) : Int) * delta cs l + 1) :=
        range_convex hin hr (by omega) (by omega)
      rw [← hu.2, num_ofInt hw _ _ hnew]
      have := Int.mul_le_mul_of_nonneg_right (show (k : Int) ≤ ((n % factor : Nat) : Int) by omega)
        (show 0 ≤ delta cs l by omega)
      omega
    · rw [e] at hu hup g1' g2' ⊢
      simp only [Unrolled.residual.injEq, relNum] at hu g1' g2' ⊢
      have hp : ¬ 0 < delta cs l := fun x => hup.1 x
      have hnew : InRange l.signed 32
          (num l.signed l.init + ((n % factor : Nat) : Int) * delta cs l - 1) :=
        range_convex hr hin (by omega) (by omega)
      rw [← hu.2, num_ofInt hw _ _ hnew]
      have := Int.mul_le_mul_of_nonpos_right (show (k : Int) ≤ ((n % factor : Nat) : Int) by omega)
        (show delta cs l ≤ 0 by omega)
      omega
  · exact absurd hu (by simp)

/-- A factor of one makes the pass fail for every loop it could unroll. -/
theorem factor_one_fails {c : Counter} {n : Nat} {st it : Int} (hy : findIterations c = .yes n st it) :
    processOne c 1 = some false := by
  simp [processOne, hy, partiallyUnroll]

end Verif.Unroll
