import Verif.LoopDep.Shape

set_option linter.unusedSimpArgs false
set_option linter.unusedVariables false

/-!
# Arithmetic, and expressions which are constants
-/

namespace Verif.LoopDep

open Verif.ScalarEvo (Node Order simplify createNegation createMultiply createAdd
  createSubtraction addAll addChild)
open Verif.ScalarEvo.Spec (Env eval evalSum)

/-! ## Results -/

theorem bindOk {ε α β : Type} {x : Except ε α} {f : α → Except ε β} {b : β}
    (h : (x >>= f) = .ok b) : ∃ a, x = .ok a ∧ f a = .ok b := by
  cases x with
  | error e => simp [bind, Except.bind] at h
  | ok a => exact ⟨a, rfl, h⟩

/-- One step of a computation which succeeds. -/
macro "bstep" h:ident a:ident ha:ident : tactic =>
  `(tactic| (replace $h := bindOk $h; obtain ⟨$a:ident, $ha:ident, $h:ident⟩ := $h))

theorem pureOk {ε α : Type} {a b : α} (h : (pure a : Except ε α) = .ok b) : a = b := by
  simpa [pure, Except.pure] using h

theorem okOk {ε α : Type} {a b : α} (h : (Except.ok a : Except ε α) = .ok b) : a = b := by
  simpa using h

theorem scOk {α : Type} {x : Except ScalarEvo.Err α} {a : α} (h : sc x = .ok a) : x = .ok a := by
  cases x <;> simp [sc] at h ⊢; exact h

theorem i64Ok {x y : Int} (h : i64 x = .ok y) : y = x := ScalarEvo.i64_ok (scOk h)

theorem derefOk {α : Type} {x : Option α} {a : α} (h : deref x = .ok a) : x = some a := by
  cases x <;> simp [deref] at h ⊢; exact h

theorem div64Ok {a b c : Int} (h : div64 a b = .ok c) : b ≠ 0 ∧ c = a.tdiv b := by
  unfold div64 at h
  split at h
  · cases h
  · exact ⟨‹_›, i64Ok h⟩

theorem mod64Ok {a b c : Int} (h : mod64 a b = .ok c) : b ≠ 0 ∧ c = a.tmod b := by
  unfold mod64 at h
  split at h
  · cases h
  · obtain ⟨_, _, h⟩ := bindOk h
    exact ⟨‹_›, (pureOk h).symm⟩

theorem abs64Ok {a c : Int} (h : abs64 a = .ok c) : c = a.natAbs := i64Ok h

theorem updOk {e e' : Option Entry} {f : Entry → Entry} (h : upd e f = .ok e') :
    ∃ x, e = some x ∧ e' = some (f x) := by
  cases e with
  | none => cases h
  | some x => exact ⟨x, rfl, (okOk h).symm⟩

/-! ## Constants -/

theorem asConst_some {n : Node} {v : Int} (h : asConst n = some v) : n = .const v := by
  cases n <;> simp [asConst] at h; rw [h]

theorem simpConst {c : Ctx} {v : Int} {m : Node} (h : c.simp (.const v) = .ok m) :
    m = .const v := simplify_const (scOk h)

theorem subConst {o : Order} {v w : Int} {m : Node}
    (h : createSubtraction o (.const v) (.const w) = .ok m) : m = .const (v - w) := by
  unfold createSubtraction at h
  obtain ⟨x, hx, h⟩ := bindOk h
  rw [← pureOk h, ScalarEvo.i64_ok hx]

theorem addConst {o : Order} {v w : Int} {m : Node}
    (h : createAdd o (.const v) (.const w) = .ok m) : m = .const (v + w) := by
  unfold createAdd at h
  obtain ⟨x, hx, h⟩ := bindOk h
  rw [← pureOk h, ScalarEvo.i64_ok hx]

theorem negConst {v : Int} {m : Node} (h : createNegation (.const v) = .ok m) :
    m = .const (-v) := by
  unfold createNegation at h
  obtain ⟨x, hx, h⟩ := bindOk h
  rw [← pureOk h, ScalarEvo.i64_ok hx]

theorem mulConst {v w : Int} {m : Node} (h : createMultiply (.const v) (.const w) = .ok m) :
    m = .const (v * w) := by
  unfold createMultiply at h
  simp only [Node.isCant, Bool.or_self, Bool.false_eq_true, if_false] at h
  obtain ⟨x, hx, h⟩ := bindOk h
  rw [← pureOk h, ScalarEvo.i64_ok hx]

theorem simpSubConst {c : Ctx} {v w : Int} {m : Node}
    (h : c.simpSub (.const v) (.const w) = .ok m) : m = .const (v - w) := by
  unfold Ctx.simpSub at h
  obtain ⟨x, hx, h⟩ := bindOk h
  cases subConst (scOk hx)
  exact simpConst h

theorem simpAddConst {c : Ctx} {v w : Int} {m : Node}
    (h : c.simpAdd (.const v) (.const w) = .ok m) : m = .const (v + w) := by
  unfold Ctx.simpAdd at h
  obtain ⟨x, hx, h⟩ := bindOk h
  cases addConst (scOk hx)
  exact simpConst h

/-! ## The greatest common divisor -/

theorem gcd_half_left {a b : Nat} (ha : a % 2 = 0) (hb : b % 2 = 1) :
    Nat.gcd (a / 2) b = Nat.gcd a b := by
  obtain ⟨k, rfl⟩ : ∃ k, a = 2 * k := ⟨a / 2, by omega⟩
  have hc : Nat.Coprime 2 b := by
    rw [Nat.Coprime, Nat.gcd_rec, hb]; decide
  rw [Nat.mul_div_cancel_left k (by decide), Nat.Coprime.gcd_mul_left_cancel k hc]

theorem steinFuel_gcd : ∀ (fuel a b : Nat), a + b < fuel → steinFuel fuel a b = Nat.gcd a b
  | 0, _, _, h => by omega
  | fuel + 1, a, b, h => by
    unfold steinFuel
    split
    · rename_i h1; subst h1; simp
    · split
      · rename_i h2; subst h2; simp
      · split
        · rename_i h3; subst h3; simp
        · split
          · rename_i h4
            simp only [Bool.and_eq_true, decide_eq_true_eq] at h4
            rw [steinFuel_gcd fuel _ _ (by omega), ← Nat.gcd_mul_left]
            congr 1 <;> omega
          · split
            · rename_i h4
              simp only [Bool.and_eq_true, decide_eq_true_eq] at h4
              rw [steinFuel_gcd fuel _ _ (by omega), gcd_half_left h4.1 h4.2]
            · split
              · rename_i h4
                simp only [Bool.and_eq_true, decide_eq_true_eq] at h4
                rw [steinFuel_gcd fuel _ _ (by omega), Nat.gcd_comm, gcd_half_left h4.2 h4.1,
                  Nat.gcd_comm]
              · rename_i h1 h2 h3 h4 h5 h6
                simp only [Bool.and_eq_true, decide_eq_true_eq] at h4 h5 h6
                split
                · rw [steinFuel_gcd fuel _ _ (by omega), gcd_half_left (by omega) (by omega),
                    Nat.gcd_sub_self_left (by omega)]
                · rw [steinFuel_gcd fuel _ _ (by omega), gcd_half_left (by omega) (by omega),
                    Nat.gcd_sub_self_left (by omega), Nat.gcd_comm]

theorem stein_gcd (a b : Nat) : stein a b = Nat.gcd a b := steinFuel_gcd _ a b (by omega)

/-! ## Conversion to floating point -/

theorem toFloatNat_double (n : Nat) : toFloatNat (2 * n) = 2 * toFloatNat n := by
  by_cases h1 : n < 2 ^ 23
  · rw [toFloatNat, toFloatNat, if_pos (by omega), if_pos (by omega)]
  · by_cases h2 : n < 2 ^ 24
    · have hl : (2 * n).log2 = 24 := (Nat.log2_eq_iff (by omega)).2 ⟨by omega, by omega⟩
      rw [toFloatNat, toFloatNat, if_neg (by omega), if_pos h2]
      simp only [hl]
      have : (2 * n) % 2 ^ (24 - 23) = 0 := by omega
      simp only [this]
      have : (2 * n) / 2 ^ (24 - 23) = n := by omega
      simp [this]; omega
    · have hn0 : n ≠ 0 := by omega
      have hl : (2 * n).log2 = n.log2 + 1 := by
        have := (Nat.log2_eq_iff hn0).1 rfl
        refine (Nat.log2_eq_iff (by omega)).2 ⟨?_, ?_⟩
        · rw [Nat.pow_succ]; omega
        · rw [Nat.pow_succ]; omega
      have hge : 24 ≤ n.log2 := (Nat.le_log2 hn0).2 (by omega)
      rw [toFloatNat, toFloatNat, if_neg (by omega), if_neg h2]
      simp only [hl]
      obtain ⟨s, hs⟩ : ∃ s, n.log2 - 23 = s + 1 := ⟨n.log2 - 24, by omega⟩
      have hs' : n.log2 + 1 - 23 = s + 1 + 1 := by omega
      rw [hs, hs']
      have e1 : 2 ^ (s + 1 + 1) = 2 * 2 ^ (s + 1) := by rw [Nat.pow_succ]; omega
      have e2 : 2 ^ (s + 1) = 2 * 2 ^ s := by rw [Nat.pow_succ]; omega
      have hq : 2 * n / 2 ^ (s + 1 + 1) = n / 2 ^ (s + 1) := by
        rw [e1, Nat.mul_div_mul_left _ _ (by decide)]
      have hr : 2 * n % 2 ^ (s + 1 + 1) = 2 * (n % 2 ^ (s + 1)) := by
        rw [e1, Nat.mul_mod_mul_left]
      simp only [hq, hr, Nat.add_sub_cancel]
      have c1 : (2 * (n % 2 ^ (s + 1)) > 2 ^ (s + 1)) ↔ (n % 2 ^ (s + 1) > 2 ^ s) := by omega
      have c2 : (2 * (n % 2 ^ (s + 1)) = 2 ^ (s + 1)) ↔ (n % 2 ^ (s + 1) = 2 ^ s) := by omega
      simp only [c1, beq_iff_eq, Bool.or_eq_true, Bool.and_eq_true, decide_eq_true_eq, c2]
      split
      · rw [e1, Nat.mul_left_comm]
      · rw [e1, Nat.mul_left_comm]

theorem toFloat_double (k : Int) : toFloat (2 * k) = 2 * toFloat k := by
  have hn : (2 * k).natAbs = 2 * k.natAbs := by omega
  unfold toFloat
  rw [hn, toFloatNat_double]
  by_cases h : k < 0
  · rw [if_pos (by omega), if_pos h]; omega
  · rw [if_neg (by omega), if_neg h]; omega

theorem ratioIsHalf_self (k : Int) : ratioIsHalf k (2 * k) = true := by
  simp [ratioIsHalf, toFloat_double]

/-! ## Division -/

theorem tdiv_exact {k q : Int} (hk : k ≠ 0) : (k * q).tdiv k = q := Int.mul_tdiv_cancel_left q hk

theorem tdiv_scale {k : Int} (hk : k ≠ 0) (a b : Int) : (k * a).tdiv (k * b) = a.tdiv b := by
  rcases Int.lt_or_gt_of_ne hk with h | h
  · have := Int.mul_tdiv_mul_of_pos a b (show 0 < -k by omega)
    rwa [Int.neg_mul, Int.neg_mul, Int.neg_tdiv, Int.tdiv_neg, Int.neg_neg] at this
  · exact Int.mul_tdiv_mul_of_pos a b h

theorem tmod_scale {k : Int} (hk : k ≠ 0) (a b : Int) : (k * a).tmod (k * b) = k * a.tmod b := by
  rw [Int.tmod_def, Int.tmod_def, tdiv_scale hk, Int.mul_sub, Int.mul_assoc]

theorem tmod_exact (k q : Int) : (k * q).tmod k = 0 := Int.mul_tmod_right k q

end Verif.LoopDep
