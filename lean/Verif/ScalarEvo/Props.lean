import Verif.ScalarEvo.More

/-!
# Scalar evolution: the properties

C48, C53, C54. What an expression means is `Spec.eval` (over the integers) and `Spec.evalMod` (in
arithmetic modulo `2 ^ w`).
-/

set_option linter.unusedVariables false

namespace Verif.ScalarEvo

open Spec

deriving instance DecidableEq for Except

/-! ## C48: simplification keeps the value -/

/-- **C48**, for supported expressions (`Spec.Supported`) which meet three conditions, each of which
is shown below to be needed. Whatever the order in which nodes were created and the addresses they
have, if simplification returns then the result has the value of the argument for every assignment
of unknowns and loop counters.

Missing: the expressions outside these conditions, for which the property is false
(`simplify_scaled_offset_wrong` and the theorems after it). -/
theorem simplify_value_partial (o : Order) (fuel : Nat) (n m : Node) (hn : Supported false n)
    (hz : ScaledFromZero n) (hneg : NoLostNegation n) (hloop : NoLostLoop n)
    (h : simplify o fuel n = .ok m) (e : Env) : eval e m = eval e n :=
  simplify_supported o fuel hn hz hneg hloop h e

/-- **C48**, the same in arithmetic on `w` bits. -/
theorem simplify_value_mod_partial (o : Order) (fuel : Nat) (n m : Node) (hn : Supported false n)
    (hz : ScaledFromZero n) (hneg : NoLostNegation n) (hloop : NoLostLoop n)
    (h : simplify o fuel n = .ok m) (w : Nat) (u i : Nat → BitVec w) :
    evalMod w u i m = evalMod w u i n := by
  rw [evalMod_eq, evalMod_eq, simplify_supported o fuel hn hz hneg hloop h]

/-- **C48**, for expressions without recurrent expressions only the first condition is left. -/
theorem simplify_value_recFree (o : Order) (fuel : Nat) (n m : Node) (hn : Supported false n)
    (hr : RecFree n) (h : simplify o fuel n = .ok m) (e : Env) :
    eval e m = eval e n ∧ RecFree m :=
  ⟨(simplify_plain o fuel n m ⟨hn, hr⟩ h).1 e, (simplify_plain o fuel n m ⟨hn, hr⟩ h).2.2⟩

/-- **C48**, simplification of such an expression calls itself at most once inside itself, and the
only thing that can go wrong is that a constant leaves the range of `int64_t`. -/
theorem simplify_only_overflow (o : Order) (fuel : Nat) (n : Node) (hn : Supported false n)
    (hz : ScaledFromZero n) (hneg : NoLostNegation n) (hloop : NoLostLoop n) :
    (∃ m, simplify o (fuel + 2) n = .ok m) ∨ simplify o (fuel + 2) n = .error .overflow := by
  have := OO.simplify o fuel hn hz hneg hloop
  cases h : simplify o (fuel + 2) n with
  | ok m => exact .inl ⟨m, rfl⟩
  | error e => rw [this e h]; exact .inr rfl

/-- **C48**, the functions which build expressions: the node has the value of the operation. -/
theorem create_value (o : Order) (e : Env) (a b m : Node) (ha : a ≠ .cant) (hb : b ≠ .cant) :
    (createAdd o a b = .ok m → eval e m = eval e a + eval e b) ∧
    (createSubtraction o a b = .ok m → eval e m = eval e a - eval e b) ∧
    (createMultiply a b = .ok m → eval e m = eval e a * eval e b) ∧
    (createNegation a = .ok m → eval e m = -eval e a) :=
  ⟨eval_createAdd o e ha hb, eval_createSubtraction o e ha hb, eval_createMultiply e ha hb,
    eval_createNegation e ha⟩

/-- What a list of recurrent expressions of the loop `l`, some of them to be subtracted, adds up
to; offset, step, whether to subtract. -/
def Spec.recurrentSum (e : Env) (l : Nat) : List (Node × Node × Bool) → Int
  | [] => 0
  | (off, coef, negative) :: rs =>
    (if negative then -eval e (.recur l off coef) else eval e (.recur l off coef)) + recurrentSum e l rs

/-- **C48**, recurrent expressions of one loop are added by adding steps and offsets, those to be
subtracted with both negated. -/
theorem sumRecurrents_value (o : Order) (e : Env) (l : Nat) : ∀ (rs : List (Node × Node × Bool))
    (coefs offs coefs' offs' : List Node), (∀ r ∈ rs, r.1 ≠ .cant ∧ r.2.1 ≠ .cant) →
    sumRecurrents o rs (coefs, offs) = .ok (coefs', offs') →
    eval e (.recur l (.add offs') (.add coefs')) =
      eval e (.recur l (.add offs) (.add coefs)) + Spec.recurrentSum e l rs
  | [], coefs, offs, coefs', offs', _, h => by
    cases ok_ok h
    simp [Spec.recurrentSum]
  | (off, coef, neg) :: rs, coefs, offs, coefs', offs', hr, h => by
    obtain ⟨h1, h2⟩ := hr (off, coef, neg) (by simp)
    simp only at h1 h2
    have ih := sumRecurrents_value o e l rs
    rw [sumRecurrents] at h
    cases neg with
    | false =>
      simp only [Bool.not_false, if_true] at h
      rw [ih _ _ _ _ (fun r hm => hr r (by simp [hm])) h]
      simp only [eval, evalSum_addChild, Spec.recurrentSum, Int.add_mul, Bool.false_eq_true, if_false]
      omega
    | true =>
      simp only [Bool.not_true, Bool.false_eq_true, if_false] at h
      obtain ⟨c, hc, h⟩ := bind_ok h
      obtain ⟨f, hf, h⟩ := bind_ok h
      rw [ih _ _ _ _ (fun r hm => hr r (by simp [hm])) h]
      simp only [eval, evalSum_addChild, Spec.recurrentSum, if_true,
        eval_createNegation e h1 hf, eval_createNegation e h2 hc, Int.add_mul, Int.neg_mul]
      omega

/-- **C48**, removing recurrent expressions with step zero keeps the value of every expression. -/
theorem eliminateZero_value (o : Order) (e : Env) (n : Node) : eval e (eliminateZero o n) = eval e n := by
  have hz : ∀ c, eval e (zeroRecurrent c) = eval e c := by
    intro c
    unfold zeroRecurrent
    split
    · simp [eval]
    · rfl
  have hs : ∀ cs : List Node, evalSum e (cs.map zeroRecurrent) = evalSum e cs := by
    intro cs
    induction cs with
    | nil => rfl
    | cons c cs ih => simp [evalSum, hz, ih]
  unfold eliminateZero
  split
  · split
    · simp [eval, evalSum_addAll, hs, evalSum]
    · rfl
  · rfl

/-- Orders used in the examples: nodes are created in the order constants, unknowns, recurrent
expressions, others. -/
def exampleOrder : Order where
  uid
    | .const _ => 0
    | .unknown i => 1 + i
    | .recur l .. => 100 + l
    | .mul .. => 200
    | .neg _ => 300
    | .add _ => 400
    | .cant => 500
  addr
    | .const _ => 0
    | .unknown i => 1 + i
    | .recur l .. => 100 + l
    | _ => 200
  loopAddr l := l

/-- `2 * i + 3 - X + (Y + 4 * j)`, where `i` and `j` count the iterations of two loops. -/
def exampleNode : Node :=
  .add [.mul (.const 2) (.recur 0 (.const 0) (.const 1)), .const 3, .neg (.unknown 7),
    .recur 1 (.unknown 8) (.const 4)]

/-- What it is simplified to. -/
def exampleResult : Node :=
  .add [.neg (.unknown 7), .recur 1 (.unknown 8) (.const 4),
    .recur 0 (.const 0) (.const 2), .const 3]

theorem exampleNode_supported : Supported false exampleNode := by
  simp [exampleNode, Supported, SupportedList, Affine, Term]

theorem exampleNode_scaled : ScaledFromZero exampleNode := by
  intro l off coef
  simp only [exampleNode, count, countSum]
  by_cases h : off = .const 0
  · exact .inr h
  · left
    have h1 : ¬ (Node.recur 0 (.const 0) (.const 1) = .recur l off coef) := by
      intro hh; cases hh; exact h rfl
    simp only [h1, if_false]
    simp only [reduceCtorEq, if_false]
    split <;> decide

theorem exampleNode_negation : NoLostNegation exampleNode := by
  right
  intro l o c o' c' h h'
  simp only [Live, exampleNode, count, countSum] at h h'
  have key : ∀ (l : Nat) (o c : Node),
      ((if Node.recur 0 (.const 0) (.const 1) = .recur l o c then (2 : Int) else 0) +
        (0 + (-(if Node.recur l o c = .unknown 7 then (1 : Int) else 0) +
        ((if Node.recur l o c = .recur 1 (.unknown 8) (.const 4) then (1 : Int) else 0) + 0))) ≠ 0) →
      (l = 0 ∧ o = .const 0 ∧ c = .const 1) ∨ (l = 1 ∧ o = .unknown 8 ∧ c = .const 4) := by
    intro l o c h
    by_cases h1 : Node.recur 0 (.const 0) (.const 1) = .recur l o c
    · cases h1; simp
    · by_cases h2 : Node.recur l o c = .recur 1 (.unknown 8) (.const 4)
      · cases h2; simp
      · simp [h1, h2] at h
  rcases key l o c h with ⟨rfl, rfl, rfl⟩ | ⟨rfl, rfl, rfl⟩ <;>
    rcases key _ o' c' h' with ⟨h0, rfl, rfl⟩ | ⟨h0, rfl, rfl⟩ <;> simp_all

theorem exampleNode_loop : NoLostLoop exampleNode := by
  intro l o c h
  refine ⟨⟨fun _ => 0, fun _ => 0, 0⟩, ?_⟩
  simp only [Live, exampleNode, count, countSum] at h
  by_cases h1 : Node.recur 0 (.const 0) (.const 1) = .recur l o c
  · cases h1; simp [exampleNode, slope, slopeSum, eval]
  · by_cases h2 : Node.recur l o c = .recur 1 (.unknown 8) (.const 4)
    · cases h2; simp [exampleNode, slope, slopeSum, eval]
    · simp [h1, h2] at h

theorem exampleNode_simplify : simplify exampleOrder 2 exampleNode = .ok exampleResult := by
  decide +kernel

/-- The hypotheses of `simplify_value_partial` are met by `2 * i + 3 - X + (Y + 4 * j)`. -/
example (e : Env) : eval e exampleResult = eval e exampleNode :=
  simplify_value_partial exampleOrder 2 exampleNode exampleResult exampleNode_supported
    exampleNode_scaled exampleNode_negation exampleNode_loop exampleNode_simplify e

/-- `3 * X - (X + 5) + 5` becomes `2 * X`. -/
example : simplify exampleOrder 1 (.add [.mul (.const 3) (.unknown 1),
    .neg (.add [.unknown 1, .const 5]), .const 5]) = .ok (.mul (.const 2) (.unknown 1)) := by
  decide +kernel

/-! ## C48: where it fails -/

/-- The example orders are also met by the code: all of these are runs of the model under one
fixed order. `ScaledFromZero` is needed: with `i` counting from 5, `2 * i` becomes the recurrent
expression which starts at 5 and steps by 2, instead of starting at 10. -/
theorem simplify_scaled_offset_wrong :
    ∃ n m e, Supported false n ∧ NoLostNegation n ∧ NoLostLoop n ∧
      simplify exampleOrder 2 n = .ok m ∧ eval e m ≠ eval e n := by
  refine ⟨.mul (.const 2) (.recur 0 (.const 5) (.const 1)), .recur 0 (.const 5) (.const 2),
    ⟨fun _ => 0, fun _ => 0, 0⟩, ?_, ?_, ?_, by decide +kernel, by decide⟩
  · simp [Supported, Affine, Term]
  · left; intro i; simp [count]
  · intro l o c h
    refine ⟨⟨fun _ => 0, fun _ => 0, 0⟩, ?_⟩
    simp only [Live, count] at h
    by_cases h1 : Node.recur 0 (.const 5) (.const 1) = .recur l o c
    · cases h1; simp [slope, eval]
    · simp [h1] at h

/-- `NoLostNegation` is needed: in `-X + i + (i + 1) + j`, with two loops, folding the two
recurrent expressions of the first loop drops the sign of `X`. -/
theorem simplify_lost_negation_wrong :
    ∃ n m e, Supported false n ∧ ScaledFromZero n ∧ NoLostLoop n ∧
      simplify exampleOrder 2 n = .ok m ∧ eval e m ≠ eval e n := by
  refine ⟨.add [.neg (.unknown 1), .recur 0 (.const 0) (.const 1), .recur 0 (.const 1) (.const 1),
      .recur 1 (.const 0) (.const 1)],
    .add [.recur 1 (.const 0) (.const 1), .recur 0 (.const 1) (.const 2), .unknown 1],
    ⟨fun _ => 1, fun _ => 0, 0⟩, ?_, ?_, ?_, by decide +kernel, by decide⟩
  · simp [Supported, SupportedList, Affine]
  · intro l off coef
    by_cases h : off = .const 0
    · exact .inr h
    · left
      have h1 : ¬ (Node.recur l off coef = .recur 0 (.const 0) (.const 1)) := by
        intro hh; cases hh; exact h rfl
      have h2 : ¬ (Node.recur l off coef = .recur 1 (.const 0) (.const 1)) := by
        intro hh; cases hh; exact h rfl
      simp only [count, countSum, h1, h2, if_false, reduceCtorEq]
      split <;> decide
  · intro l o c h
    refine ⟨⟨fun _ => 0, fun _ => 0, 0⟩, ?_⟩
    simp only [Live, count, countSum] at h
    have hl : l = 0 ∨ l = 1 := by
      by_cases h0 : l = 0
      · exact .inl h0
      · by_cases h1 : l = 1
        · exact .inr h1
        · simp [h0, h1] at h
    rcases hl with rfl | rfl <;> decide

/-- `NoLostLoop` is needed: in `X + (i + 1) - i` the steps cancel, and the result is 1 without
`X`. -/
theorem simplify_lost_loop_wrong :
    ∃ n m e, Supported false n ∧ ScaledFromZero n ∧ NoLostNegation n ∧
      simplify exampleOrder 2 n = .ok m ∧ eval e m ≠ eval e n := by
  refine ⟨.add [.unknown 1, .recur 0 (.const 1) (.const 1), .neg (.recur 0 (.const 0) (.const 1))],
    .const 1, ⟨fun _ => 1, fun _ => 0, 0⟩, ?_, ?_, ?_, by decide +kernel, by decide⟩
  · simp [Supported, SupportedList, Affine]
  · intro l off coef
    by_cases h : off = .const 0
    · exact .inr h
    · left
      have h1 : ¬ (Node.recur l off coef = .recur 0 (.const 0) (.const 1)) := by
        intro hh; cases hh; exact h rfl
      simp only [count, countSum, h1, if_false, reduceCtorEq]
      split <;> decide
  · left; intro i; simp only [count, countSum, reduceCtorEq, if_false]; split <;> decide

/-- `Supported` is needed, even without recurrent expressions: `-(X * Y)` becomes `X * Y`. -/
theorem simplify_negated_product_wrong :
    ∃ n m e, RecFree n ∧ simplify exampleOrder 2 n = .ok m ∧ eval e m ≠ eval e n :=
  ⟨.neg (.mul (.unknown 1) (.unknown 2)), .mul (.unknown 1) (.unknown 2),
    ⟨fun _ => 1, fun _ => 0, 0⟩, by simp [RecFree], by decide +kernel, by decide⟩

/-- A product of an unknown and a recurrent expression is treated as if it were a sum: `X * i`
becomes `X + i`. -/
theorem simplify_product_becomes_sum :
    simplify exampleOrder 2 (.mul (.unknown 1) (.recur 0 (.const 0) (.const 1))) =
      .ok (.recur 0 (.unknown 1) (.const 1)) ∧
    ∃ e, eval e (.recur 0 (.unknown 1) (.const 1)) ≠
      eval e (.mul (.unknown 1) (.recur 0 (.const 0) (.const 1))) :=
  ⟨by decide +kernel, ⟨fun _ => 2, fun _ => 1, 0⟩, by decide⟩

/-- So is a product of two recurrent expressions: `i * i` becomes `2 * i`. -/
theorem simplify_square_becomes_double :
    simplify exampleOrder 2 (.mul (.recur 0 (.const 0) (.const 1)) (.recur 0 (.const 0) (.const 1))) =
      .ok (.recur 0 (.const 0) (.const 2)) ∧
    ∃ e, eval e (.recur 0 (.const 0) (.const 2)) ≠
      eval e (.mul (.recur 0 (.const 0) (.const 1)) (.recur 0 (.const 0) (.const 1))) :=
  ⟨by decide +kernel, ⟨fun _ => 0, fun _ => 1, 0⟩, by decide⟩

/-- When a recurrent expression with step zero is replaced by its offset and one other recurrent
expression is left, the offset is lost: `X + (Y + 0 * j) + i` becomes `X + i`. -/
theorem simplify_zero_step_loses_offset :
    simplify exampleOrder 2 (.add [.unknown 1, .recur 1 (.unknown 2) (.const 0),
      .recur 0 (.const 0) (.const 1)]) = .ok (.recur 0 (.unknown 1) (.const 1)) ∧
    ∃ e, eval e (.recur 0 (.unknown 1) (.const 1)) ≠
      eval e (.add [.unknown 1, .recur 1 (.unknown 2) (.const 0),
        .recur 0 (.const 0) (.const 1)]) :=
  ⟨by decide +kernel, ⟨fun _ => 1, fun _ => 0, 0⟩, by decide⟩

/-- A sum of a recurrent expression and something which cannot be computed makes the code read a
pointer which was never set. -/
theorem simplify_cant_reads_uninitialised :
    simplify exampleOrder 2 (.add [.cant, .recur 0 (.const 0) (.const 1)]) = .error .uninit := by
  decide +kernel

/-! ## C53: comparing with zero -/

/-- **C53**: what `IsAlwaysGreaterThanZero` concludes is right over the integers, provided loop
counters are not negative and unknowns of unsigned type are not negative. Whatever the order of the
children: "greater" means the value always is, "not greater" means that it always is negative. -/
theorem greater_than_zero_sound (o : Order) (signed : Nat → Bool) (n : Node) (e : Env)
    (hu : ∀ i, signed i = false → 0 ≤ e.unknown i) (hi : ∀ l, 0 ≤ e.iteration l) :
    (isAlwaysGreaterThanZero o signed n = some true → 0 < eval e n) ∧
    (isAlwaysGreaterThanZero o signed n = some false → eval e n < 0) := by
  have h := visit_holds o signed e hu hi n
  unfold isAlwaysGreaterThanZero
  cases hv : visit o signed n <;> rw [hv] at h <;> simp [evalSign] <;> simpa [Sign.Holds] using h

/-- **C53**: what `IsAlwaysGreaterOrEqualToZero` concludes is right over the integers when it says
"greater or equal". When it says "not", the value never is positive.

Missing: "not" should mean that the value is always negative, which is false
(`greater_or_equal_wrong`). -/
theorem greater_or_equal_zero_partial (o : Order) (signed : Nat → Bool) (n : Node) (e : Env)
    (hu : ∀ i, signed i = false → 0 ≤ e.unknown i) (hi : ∀ l, 0 ≤ e.iteration l) :
    (isAlwaysGreaterOrEqualToZero o signed n = some true → 0 ≤ eval e n) ∧
    (isAlwaysGreaterOrEqualToZero o signed n = some false → eval e n ≤ 0) := by
  have h := visit_holds o signed e hu hi n
  unfold isAlwaysGreaterOrEqualToZero
  cases hv : visit o signed n <;> rw [hv] at h <;> simp [evalSign] <;> simp [Sign.Holds] at h <;>
    omega

/-- `-X` with `X` unsigned is said never to be greater or equal to zero, and is zero when `X`
is. -/
theorem greater_or_equal_wrong (o : Order) :
    isAlwaysGreaterOrEqualToZero o (fun _ => false) (.neg (.unknown 1)) = some false ∧
    0 ≤ eval ⟨fun _ => 0, fun _ => 0, 0⟩ (.neg (.unknown 1)) :=
  ⟨rfl, by decide⟩

/-- In arithmetic on 32 bits the conclusion is wrong: `X + 1` with `X` unsigned is said always to be
greater than zero, and wraps round to zero. -/
theorem greater_than_zero_wraps (o : Order) :
    isAlwaysGreaterThanZero o (fun _ => false) (.add [.unknown 1, .const 1]) = some true ∧
    ∃ u i, (evalMod 32 u i (.add [.unknown 1, .const 1])).toNat = 0 :=
  ⟨rfl, fun _ => 0xffffffff#32, fun _ => 0, by decide⟩

/-- A case where both conclusions are drawn: `3 * i + X + 1` and `-(X * X) - 2` with `X`
unsigned. -/
example : isAlwaysGreaterThanZero exampleOrder (fun _ => false)
      (.add [.recur 0 (.unknown 1) (.const 3), .const 1]) = some true ∧
    isAlwaysGreaterThanZero exampleOrder (fun _ => false)
      (.add [.neg (.mul (.unknown 1) (.unknown 1)), .const (-2)]) = some false ∧
    isAlwaysGreaterThanZero exampleOrder (fun _ => true) (.unknown 1) = none := by
  decide +kernel

/-! ## C54: dividing expressions -/

/-- **C54**: when the division of two simplified expressions returns something which can be
computed, the dividend is the quotient times the divisor plus the remainder; the remainder is
smaller than the divisor and has the sign of the dividend. For products this is shown where each
factor is supported and free of recurrent expressions and the product is left-leaning.

Missing: other products, for which it is false (`divide_right_product_wrong`). -/
theorem divide_value_partial (o : Order) (fuel : Nat) (lhs rhs q : Node) (r : Int)
    (hg : ∀ a b, lhs = .mul a b → GoodFactors lhs ∧ LeftLeaning o lhs)
    (h : divide o (simplify o fuel) lhs rhs = .ok (q, r)) (hq : q ≠ .cant) (e : Env) :
    eval e lhs = eval e q * eval e rhs + r ∧ (r = 0 ∨ r.natAbs < (eval e rhs).natAbs) ∧
      (0 ≤ eval e lhs → 0 ≤ r) ∧ (eval e lhs ≤ 0 → r ≤ 0) := by
  have cantSimp : ∀ m, simplify o fuel .cant = .ok m → m = .cant := by
    intro m hm
    cases fuel with
    | zero => cases hm
    | succ f => cases hm; rfl
  have constSimp : ∀ v m, simplify o fuel (.const v) = .ok m → m = .const v := by
    intro v m hm
    cases fuel with
    | zero => cases hm
    | succ f => cases hm; rfl
  have dead : ∀ {x : Except Err (Node × Int)}, x = .ok (.cant, 0) →
      (do let (q, r) ← x; return (← simplify o fuel q, r)) = Except.ok (q, r) → False := by
    intro x hx hh
    subst hx
    obtain ⟨p, hp, hh⟩ := bind_ok hh
    cases hp
    obtain ⟨m, hm, hh⟩ := bind_ok hh
    cases hh
    exact hq (cantSimp _ hm)
  unfold divide at h
  split at h
  · exact (dead rfl h).elim
  · rename_i v w hw
    obtain ⟨⟨q', r'⟩, h1, h⟩ := bind_ok h
    obtain ⟨c, hc, h1⟩ := bind_ok h1
    cases h1
    obtain ⟨m, hm, h⟩ := bind_ok h
    cases h
    have hm := constSimp _ _ hm
    have hcv : c = v.tdiv w := by
      unfold i64 at hc; split at hc <;> cases hc; rfl
    subst hm hcv
    simp only [eval]
    have hw0 : w ≠ 0 := by rintro rfl; exact hw rfl
    refine ⟨by rw [Int.mul_comm]; exact (Int.mul_tdiv_add_tmod v w).symm, .inr ?_,
      fun hv => Int.tmod_nonneg _ hv, fun hv => ?_⟩
    · rw [Int.natAbs_tmod]; exact Nat.mod_lt _ (by omega)
    · have := Int.tmod_nonneg w (a := -v) (by omega)
      rw [Int.neg_tmod] at this; omega
  · rename_i a b hne
    obtain ⟨⟨q', r'⟩, h1, h⟩ := bind_ok h
    obtain ⟨res, hres, h1⟩ := bind_ok h1
    obtain ⟨m, hm, h⟩ := bind_ok h
    cases h
    split at h1
    · rename_i hd
      cases h1
      obtain ⟨hgf, hll⟩ := hg a b rfl
      rcases removeFromChain_spec o rhs _ _ hgf hll hres with hh | ⟨hv, hp⟩
      · exact (hd hh).elim
      · have := (simplify_plain o fuel _ _ hp hm).1 e
        rw [this, hv e]
        simp
    · cases h1
      exact (hq (cantSimp _ hm)).elim
  · exact (dead rfl h).elim

/-- The hypotheses are met: `(X * Y) * Z` divided by `Y` is `X * Z`, and `-7` divided by `2` is
`-3` with remainder `-1`. -/
example : divide exampleOrder (simplify exampleOrder 2)
      (.mul (.mul (.unknown 1) (.unknown 2)) (.unknown 3)) (.unknown 2) =
        .ok (.mul (.unknown 1) (.unknown 3), 0) ∧
    GoodFactors (.mul (.mul (.unknown 1) (.unknown 2)) (.unknown 3)) ∧
    LeftLeaning exampleOrder (.mul (.mul (.unknown 1) (.unknown 2)) (.unknown 3)) ∧
    divide exampleOrder (simplify exampleOrder 2) (.const (-7)) (.const 2) =
      .ok (.const (-3), -1) := by
  refine ⟨by decide +kernel, ?_, ?_, by decide +kernel⟩
  · simp [GoodFactors, Supported, RecFree]
  · simp [LeftLeaning, exampleOrder]

/-- Where the second factor is a product, line 948 multiplies with the wrong factor:
`X * (Y * Z)` divided by `Z` is `Y * (Y * Z)`. -/
theorem divide_right_product_wrong :
    divide exampleOrder (simplify exampleOrder 2)
      (.mul (.unknown 300) (.mul (.unknown 2) (.unknown 3))) (.unknown 3) =
        .ok (.mul (.unknown 2) (.mul (.unknown 2) (.unknown 3)), 0) ∧
    ∃ e, eval e (.mul (.unknown 300) (.mul (.unknown 2) (.unknown 3))) ≠
      eval e (.mul (.unknown 2) (.mul (.unknown 2) (.unknown 3))) * eval e (.unknown 3) + 0 :=
  ⟨by decide +kernel, ⟨fun i => if i = 300 then 5 else 1, fun _ => 0, 0⟩, by decide⟩

end Verif.ScalarEvo
