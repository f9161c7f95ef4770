import Verif.ScalarEvo.Total

set_option linter.unusedSimpArgs false
set_option linter.unusedVariables false

namespace Verif.ScalarEvo

open Spec

/-! ## Arithmetic modulo a power of two -/

mutual
theorem evalMod_eq (w : Nat) (u i : Nat → BitVec w) : ∀ n : Node,
    evalMod w u i n =
      BitVec.ofInt w (eval ⟨fun k => (u k).toInt, fun k => (i k).toInt, 0⟩ n)
  | .const v => by simp [evalMod, eval]
  | .unknown k => by simp [evalMod, eval]
  | .recur l off coef => by
    simp [evalMod, eval, evalMod_eq w u i off, evalMod_eq w u i coef, BitVec.ofInt_add,
      BitVec.ofInt_mul]
  | .add cs => by simp [evalMod, eval, evalModSum_eq w u i cs]
  | .mul a b => by
    simp [evalMod, eval, evalMod_eq w u i a, evalMod_eq w u i b, BitVec.ofInt_mul]
  | .neg a => by simp [evalMod, eval, evalMod_eq w u i a, BitVec.ofInt_neg]
  | .cant => by simp [evalMod, eval]
theorem evalModSum_eq (w : Nat) (u i : Nat → BitVec w) : ∀ cs : List Node,
    evalModSum w u i cs =
      BitVec.ofInt w (evalSum ⟨fun k => (u k).toInt, fun k => (i k).toInt, 0⟩ cs)
  | [] => by simp [evalModSum, evalSum]
  | c :: cs => by
    simp [evalModSum, evalSum, evalMod_eq w u i c, evalModSum_eq w u i cs, BitVec.ofInt_add]
end

/-! ## Signs -/

/-- What a sign says of a value. -/
def Sign.Holds : Sign → Int → Prop
  | .any, _ => True
  | .neg, v => v < 0
  | .nonPos, v => v ≤ 0
  | .pos, v => 0 < v
  | .nonNeg, v => 0 ≤ v

theorem addSign_holds {s t : Sign} {v w : Int} (hs : s.Holds v) (ht : t.Holds w) :
    (addSign s t).Holds (v + w) := by
  cases s <;> cases t <;> simp only [Sign.Holds, addSign] at * <;> omega

theorem mulSign_holds {s t : Sign} {v w : Int} (hs : s.Holds v) (ht : t.Holds w) :
    (mulSign s t).Holds (v * w) := by
  have nn : ∀ a b : Int, 0 ≤ a → 0 ≤ b → 0 ≤ a * b := fun _ _ => Int.mul_nonneg
  have pp : ∀ a b : Int, 0 < a → 0 < b → 0 < a * b := fun _ _ => Int.mul_pos
  have e1 : v * w = -((-v) * w) := by rw [Int.neg_mul]; omega
  have e2 : v * w = -(v * (-w)) := by rw [Int.mul_neg]; omega
  have e3 : v * w = (-v) * (-w) := by rw [Int.neg_mul_neg]
  cases s <;> cases t <;> simp only [Sign.Holds, mulSign] at *
  · rw [e3]; exact pp _ _ (by omega) (by omega)
  · rw [e3]; exact nn _ _ (by omega) (by omega)
  · have := pp (-v) w (by omega) ht; omega
  · have := nn (-v) w (by omega) ht; omega
  · rw [e3]; exact nn _ _ (by omega) (by omega)
  · rw [e3]; exact nn _ _ (by omega) (by omega)
  · have := nn (-v) w (by omega) (by omega); omega
  · have := nn (-v) w (by omega) ht; omega
  · have := pp v (-w) hs (by omega); omega
  · have := nn v (-w) (by omega) (by omega); omega
  · exact pp _ _ hs ht
  · exact nn _ _ (by omega) ht
  · have := nn v (-w) hs (by omega); omega
  · have := nn v (-w) hs (by omega); omega
  · exact nn _ _ hs (by omega)
  · exact nn _ _ hs ht

theorem negSign_holds {s : Sign} {v : Int} (hs : s.Holds v) : (negSign s).Holds (-v) := by
  cases s <;> simp only [Sign.Holds, negSign] at * <;> omega

theorem constSign_holds (v : Int) : (constSign v).Holds v := by
  unfold constSign
  split
  · simp [Sign.Holds]; omega
  · split
    · simpa [Sign.Holds]
    · simp [Sign.Holds]; omega

theorem stepSign_holds {s : Sign} {v k : Int} (hs : s.Holds v) (hk : 0 ≤ k) :
    (stepSign s).Holds (v * k) := by
  have nn : ∀ a b : Int, 0 ≤ a → 0 ≤ b → 0 ≤ a * b := fun _ _ => Int.mul_nonneg
  have e1 : v * k = -((-v) * k) := by rw [Int.neg_mul]; omega
  cases s <;> simp only [Sign.Holds, stepSign] at *
  · have := nn (-v) k (by omega) hk; omega
  · have := nn (-v) k (by omega) hk; omega
  · exact nn _ _ (by omega) hk
  · exact nn _ _ hs hk

mutual
theorem visit_holds (o : Order) (signed : Nat → Bool) (e : Env)
    (hu : ∀ i, signed i = false → 0 ≤ e.unknown i) (hi : ∀ l, 0 ≤ e.iteration l) :
    ∀ n : Node, (visit o signed n).Holds (eval e n)
  | .const v => constSign_holds v
  | .unknown i => by
    unfold visit
    cases h : signed i
    · simpa [Sign.Holds, eval] using hu i h
    · simp [Sign.Holds]
  | .recur l off coef => by
    unfold visit eval
    exact addSign_holds (stepSign_holds (visit_holds o signed e hu hi coef) (hi l))
      (visit_holds o signed e hu hi off)
  | .add cs => by
    unfold visit eval
    exact visitAdd_holds o signed e hu hi cs
  | .mul a b => by
    have ha := visit_holds o signed e hu hi a
    have hb := visit_holds o signed e hu hi b
    unfold visit eval
    by_cases hc : o.uid b ≤ o.uid a
    · simp only [hc, if_true]
      split
      · trivial
      · exact mulSign_holds ha hb
    · simp only [hc, if_false]
      split
      · trivial
      · rw [Int.mul_comm]; exact mulSign_holds hb ha
  | .neg a => by
    unfold visit eval
    exact negSign_holds (visit_holds o signed e hu hi a)
  | .cant => trivial
theorem visitAdd_holds (o : Order) (signed : Nat → Bool) (e : Env)
    (hu : ∀ i, signed i = false → 0 ≤ e.unknown i) (hi : ∀ l, 0 ≤ e.iteration l) :
    ∀ cs : List Node, (visitAdd o signed cs).Holds (evalSum e cs)
  | [] => trivial
  | c :: cs => by
    unfold visitAdd evalSum
    exact visitRest_holds o signed e hu hi cs _ _ (visit_holds o signed e hu hi c)
theorem visitRest_holds (o : Order) (signed : Nat → Bool) (e : Env)
    (hu : ∀ i, signed i = false → 0 ≤ e.unknown i) (hi : ∀ l, 0 ≤ e.iteration l) :
    ∀ (cs : List Node) (s : Sign) (v : Int), s.Holds v →
      (visitRest o signed s cs).Holds (v + evalSum e cs)
  | [], s, v, h => by
    unfold visitRest
    simpa [evalSum] using h
  | c :: cs, s, v, h => by
    unfold visitRest
    split
    · trivial
    · have := visitRest_holds o signed e hu hi cs _ _
        (addSign_holds h (visit_holds o signed e hu hi c))
      rw [evalSum, ← Int.add_assoc]
      exact this
end

/-! ## Division -/

theorem createMultiply_plain {a b m : Node} (ha : RecFree a) (hb : RecFree b)
    (h : createMultiply a b = .ok m) : Plain m := by
  unfold createMultiply at h
  split at h
  · rename_i hc
    cases a <;> cases b <;> first | exact ha.elim | exact hb.elim | simp [Node.isCant] at hc
  · split at h
    · obtain ⟨x, hx, h⟩ := bind_ok h
      cases pure_ok h
      exact ⟨trivial, trivial⟩
    · cases ok_ok h
      exact ⟨.inr (.inr ⟨rfl, ha, hb⟩), ⟨ha, hb⟩⟩

theorem goodFactors_plain : ∀ n : Node, GoodFactors n → Plain n
  | .mul a b, h => by
    have ha := goodFactors_plain a h.1
    have hb := goodFactors_plain b h.2
    exact ⟨.inr (.inr ⟨rfl, ha.2, hb.2⟩), ⟨ha.2, hb.2⟩⟩
  | .const _, h => h
  | .unknown _, h => h
  | .recur .., h => h
  | .add _, h => h
  | .neg _, h => h
  | .cant, h => h

theorem removeFromChain_leaf (o : Order) (node : Node) {n : Node} (h : ∀ x y, n ≠ .mul x y) :
    removeFromChain o node n = .ok n := by
  cases n with
  | mul a b => exact (h a b rfl).elim
  | _ => rfl

theorem removeFromChain_spec (o : Order) (node : Node) : ∀ n r : Node, GoodFactors n →
    LeftLeaning o n → removeFromChain o node n = .ok r →
    r = n ∨ ((∀ e, eval e n = eval e r * eval e node) ∧ Plain r)
  | .mul a b, r, hg, hl, h => by
    have pa := goodFactors_plain a hg.1
    have pb := goodFactors_plain b hg.2
    unfold removeFromChain at h
    unfold LeftLeaning at hl
    by_cases hc : o.uid b ≤ o.uid a
    · simp only [hc, decide_true, if_true] at h hl
      split at h
      · rename_i heq
        cases pure_ok h
        exact .inr ⟨fun e => by rw [eval, heq, Int.mul_comm], pb⟩
      · split at h
        · rename_i heq
          cases pure_ok h
          exact .inr ⟨fun e => by rw [eval, heq], pa⟩
        · obtain ⟨ra, hra, h⟩ := bind_ok h
          rcases removeFromChain_spec o node a ra hg.1 hl.2 hra with rfl | ⟨h1, h2⟩
          · simp only [ne_eq, not_true_eq_false, if_false] at h
            rw [removeFromChain_leaf o node hl.1] at h
            simp only [bind, Except.bind, not_true_eq_false, if_false] at h
            cases pure_ok h
            exact .inl rfl
          · split at h
            · refine .inr ⟨fun e => ?_, createMultiply_plain h2.2 pb.2 h⟩
              rw [eval_createMultiply e (plain_ne_cant h2) (plain_ne_cant pb) h, eval, h1]
              simp only [Int.mul_assoc, Int.mul_comm (eval e node)]
            · rename_i hne
              have : ra = a := by simpa using hne
              subst this
              rw [removeFromChain_leaf o node hl.1] at h
              simp only [bind, Except.bind, ne_eq, not_true_eq_false, if_false] at h
              cases pure_ok h
              exact .inl rfl
    · simp only [hc, decide_false, if_false, Bool.false_eq_true] at h hl
      split at h
      · rename_i heq
        cases pure_ok h
        exact .inr ⟨fun e => by rw [eval, heq], pa⟩
      · split at h
        · rename_i heq
          cases pure_ok h
          exact .inr ⟨fun e => by rw [eval, heq, Int.mul_comm], pb⟩
        · obtain ⟨rb, hrb, h⟩ := bind_ok h
          rcases removeFromChain_spec o node b rb hg.2 hl.2 hrb with rfl | ⟨h1, h2⟩
          · simp only [ne_eq, not_true_eq_false, if_false] at h
            rw [removeFromChain_leaf o node hl.1] at h
            simp only [bind, Except.bind, not_true_eq_false, if_false] at h
            cases pure_ok h
            exact .inl rfl
          · split at h
            · refine .inr ⟨fun e => ?_, createMultiply_plain h2.2 pa.2 h⟩
              rw [eval_createMultiply e (plain_ne_cant h2) (plain_ne_cant pa) h, eval, h1]
              simp only [Int.mul_assoc, Int.mul_comm (eval e node)]
              rw [Int.mul_left_comm]
            · rename_i hne
              have : rb = b := by simpa using hne
              subst this
              rw [removeFromChain_leaf o node hl.1] at h
              simp only [bind, Except.bind, ne_eq, not_true_eq_false, if_false] at h
              cases pure_ok h
              exact .inl rfl
  | .const _, r, _, _, h => by cases ok_ok h; exact .inl rfl
  | .unknown _, r, _, _, h => by cases ok_ok h; exact .inl rfl
  | .recur .., r, _, _, h => by cases ok_ok h; exact .inl rfl
  | .add _, r, _, _, h => by cases ok_ok h; exact .inl rfl
  | .neg _, r, _, _, h => by cases ok_ok h; exact .inl rfl
  | .cant, r, _, _, h => by cases ok_ok h; exact .inl rfl

end Verif.ScalarEvo
