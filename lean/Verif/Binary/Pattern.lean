import Verif.Binary.Lemmas
set_option linter.unusedSimpArgs false
set_option linter.unusedVariables false

/-!
# Operand pattern expansion (C50)  (source/operand.cpp:251-482)

`takeFirst`, `expandOnce` and `pushTypes` are in `Operand.lean`.
-/
namespace Verif.Binary
open Verif.StringLit (Byte Word)

/-- Feeding operands of the given types to a pattern: what the loop of
`Parser::parseInstruction` does, source/binary.cpp:386-415, when no operand changes the
pattern. `none` = an operand of another type was required, or none was expected. -/
def consume : Pattern → List OT → Option Pattern
  | p, [] => some p
  | p, t :: ts =>
    match takeFirst p with
    | none => none
    | some (u, q) => if t = u then consume q ts else none

/-- … followed by the end-of-instruction check, source/binary.cpp:417-423. -/
def accepts (p : Pattern) (ts : List OT) : Bool :=
  match consume p ts with
  | none => false
  | some q => !moreExpected q

/-- `spvPushOperandTypesForMask`, source/operand.cpp:266-280, from bit `k - 1` down;
`entry bit` is the outcome of `LookupOperand(type, 1 << bit)`. -/
def pushForMask (entry : Nat → Option (List OT)) (mask : Word) : Nat → Pattern → Pattern
  | 0, p => p
  | k + 1, p =>
    if mask.getLsbD k then
      match entry k with
      | some ops => pushForMask entry mask k (pushTypes ops p)
      | none => pushForMask entry mask k p
    else pushForMask entry mask k p

/-- `spvAlternatePatternFollowingImmediate`, source/operand.cpp:469-482: the vector
`{CIV, RESULT_ID, CIV × d}` read from its back. -/
def alternatePattern (p : Pattern) : Pattern :=
  if .RESULT_ID ∈ p then List.replicate (p.idxOf .RESULT_ID) .OPTIONAL_CIV ++ [.RESULT_ID, .OPTIONAL_CIV]
  else [.OPTIONAL_CIV]

namespace Spec

/-- The unit repeated by each kind of "any number of" operand (SPIR-V grammar). -/
def unit : OT → Option (List OT)
  | .VARIABLE_ID => some [.OPTIONAL_ID]
  | .VARIABLE_LITERAL_INTEGER => some [.OPTIONAL_LITERAL_INTEGER]
  | .VARIABLE_LITERAL_INTEGER_ID => some [.OPTIONAL_TYPED_LITERAL_INTEGER, .ID]
  | .VARIABLE_ID_LITERAL_INTEGER => some [.OPTIONAL_ID, .LITERAL_INTEGER]
  | .VARIABLE_CAPABILITY => some [.OPTIONAL_CAPABILITY]
  | _ => none

/-- The operand sequences a pattern stands for: required operands exactly once, an
optional operand once or, together with everything after it, not at all; a "variable"
operand as any number of whole units. -/
inductive Gen : Pattern → List OT → Prop
  | done : Gen [] []
  | one {t p ts} : unit t = none → Gen p ts → Gen (t :: p) (t :: ts)
  | stop {t p} : t.isOptionalOnce = true → Gen (t :: p) []
  | rep {t p u} (n : Nat) : unit t = some u → Gen (t :: p) (List.replicate n u).flatten

/-- The operands required by a mask: those of the set bits, lowest bit first. -/
def maskOperands (entry : Nat → Option (List OT)) (mask : Word) (k : Nat) : List OT :=
  (List.range k).flatMap fun b =>
    if mask.getLsbD b then ((entry b).getD []).filter (· != .NONE) else []

end Spec

/-! ### Termination of the expansion loop -/

theorem expandOnce_some {t : OT} {p q : Pattern} (h : expandOnce t p = some q) :
    ∃ a r, q = a :: r ∧ expandOnce a r = none := by
  cases t <;> simp only [expandOnce, reduceCtorEq, Option.some.injEq] at h <;> subst h <;>
    exact ⟨_, _, rfl, rfl⟩

/-- C50: the expand loop ends within two rounds for every pattern, with the result of `takeFirst`. -/
theorem takeFirst_terminates (p : Pattern) (n : Nat) (hn : 2 ≤ n) : takeFirstLoop n p = takeFirst p := by
  obtain ⟨n, rfl⟩ : ∃ m, n = m + 2 := ⟨n - 2, by omega⟩
  cases p with
  | nil => rfl
  | cons t p =>
    rw [takeFirstLoop, takeFirst]
    cases h : expandOnce t p with
    | none => rfl
    | some q =>
      obtain ⟨a, r, rfl, h2⟩ := expandOnce_some h
      simp only [takeFirstLoop, h2]

/-! ### Faithfulness -/

theorem expandOnce_unit (t : OT) (p : Pattern) :
    expandOnce t p = (Spec.unit t).map (fun u => u ++ t :: p) := by
  cases t <;> rfl

theorem unit_optional {t : OT} {u} (h : Spec.unit t = some u) : t.isOptional = true := by
  cases t <;> simp only [Spec.unit, reduceCtorEq] at h <;> rfl

theorem unit_none {t : OT} (h : Spec.unit t = none) : t.isVariable = false := by
  cases t <;> simp only [Spec.unit, reduceCtorEq] at h <;> rfl

theorem unit_cases {t : OT} {u} (h : Spec.unit t = some u) :
    (∃ a, u = [a]) ∨ (∃ a b, u = [a, b] ∧ Spec.unit b = none ∧ b.isOptional = false) := by
  cases t <;> simp only [Spec.unit, reduceCtorEq, Option.some.injEq] at h <;> subst h <;>
    first | exact Or.inl ⟨_, rfl⟩ | exact Or.inr ⟨_, _, rfl, rfl, rfl⟩

theorem accepts_nil (ts : List OT) : accepts [] ts = true ↔ ts = [] := by
  cases ts <;> simp [accepts, consume, takeFirst, moreExpected]

theorem accepts_end (t : OT) (p : Pattern) : accepts (t :: p) [] = t.isOptional := by
  simp [accepts, consume, moreExpected]

theorem accepts_one {t : OT} {p : Pattern} {x : OT} {ts : List OT} (h : Spec.unit t = none) :
    accepts (t :: p) (x :: ts) = true ↔ x = t ∧ accepts p ts = true := by
  have : takeFirst (t :: p) = some (t, p) := by simp [takeFirst, expandOnce_unit, h]
  by_cases hx : x = t <;> simp [accepts, consume, this, hx]

theorem accepts_rep {t : OT} {p : Pattern} {u : List OT} (h : Spec.unit t = some u) :
    ∀ (n : Nat) (ts : List OT), ts.length ≤ n →
      (accepts (t :: p) ts = true ↔ ∃ k, ts = (List.replicate k u).flatten) := by
  intro n
  induction n with
  | zero =>
    intro ts hl
    have : ts = [] := by simpa using hl
    subst this
    rw [accepts_end, unit_optional h]
    simp only [true_iff]
    exact ⟨0, by simp⟩
  | succ n ih =>
    intro ts hl
    cases ts with
    | nil =>
      rw [accepts_end, unit_optional h]
      simp only [true_iff]
      exact ⟨0, by simp⟩
    | cons x ts =>
      rcases unit_cases h with ⟨a, rfl⟩ | ⟨a, b, rfl, hb, hbo⟩
      · have htf : takeFirst (t :: p) = some (a, t :: p) := by simp [takeFirst, expandOnce_unit, h]
        have hl' : ts.length ≤ n := by simp at hl; omega
        constructor
        · intro ha
          have : x = a ∧ accepts (t :: p) ts = true := by
            by_cases hx : x = a <;> simp [accepts, consume, htf, hx] at ha ⊢
            exact ha
          obtain ⟨rfl, h2⟩ := this
          obtain ⟨k, hk⟩ := (ih ts hl').1 h2
          exact ⟨k + 1, by rw [List.replicate_succ, List.flatten_cons, ← hk]; rfl⟩
        · rintro ⟨k, hk⟩
          cases k with
          | zero => simp at hk
          | succ k =>
            rw [List.replicate_succ, List.flatten_cons] at hk
            simp only [List.cons_append, List.nil_append, List.cons.injEq] at hk
            have := (ih ts hl').2 ⟨k, hk.2⟩
            simp [accepts, consume, htf, hk.1] at this ⊢
            rw [hk.2]; rw [hk.2] at this; exact this
      · have htf : takeFirst (t :: p) = some (a, b :: t :: p) := by simp [takeFirst, expandOnce_unit, h]
        have htb : takeFirst (b :: t :: p) = some (b, t :: p) := by simp [takeFirst, expandOnce_unit, hb]
        cases ts with
        | nil =>
          constructor
          · intro ha
            simp only [accepts, consume, htf] at ha
            by_cases hx : x = a <;> simp [hx, moreExpected, hbo] at ha
          · rintro ⟨k, hk⟩
            have := congrArg List.length hk
            simp at this
            omega
        | cons y ts =>
          have hl' : ts.length ≤ n := by simp at hl; omega
          constructor
          · intro ha
            have : x = a ∧ y = b ∧ accepts (t :: p) ts = true := by
              by_cases hx : x = a <;> by_cases hy : y = b <;> simp [accepts, consume, htf, htb, hx, hy] at ha ⊢
              exact ha
            obtain ⟨rfl, rfl, h2⟩ := this
            obtain ⟨k, hk⟩ := (ih ts hl').1 h2
            exact ⟨k + 1, by rw [List.replicate_succ, List.flatten_cons, ← hk]; rfl⟩
          · rintro ⟨k, hk⟩
            cases k with
            | zero => simp at hk
            | succ k =>
              rw [List.replicate_succ, List.flatten_cons] at hk
              simp only [List.cons_append, List.nil_append, List.cons.injEq] at hk
              have := (ih ts hl').2 ⟨k, hk.2.2⟩
              simp [accepts, consume, htf, htb, hk.1, hk.2.1] at this ⊢
              rw [hk.2.2]; rw [hk.2.2] at this; exact this

/-- C50: the pattern machinery accepts exactly the operand sequences of the grammar. -/
theorem accepts_iff (p : Pattern) (ts : List OT) : accepts p ts = true ↔ Spec.Gen p ts := by
  induction p generalizing ts with
  | nil =>
    rw [accepts_nil]
    constructor
    · rintro rfl; exact .done
    · intro h; cases h; rfl
  | cons t p ih =>
    cases hu : Spec.unit t with
    | some u =>
      rw [accepts_rep hu _ ts (Nat.le_refl _)]
      constructor
      · rintro ⟨k, rfl⟩; exact .rep k hu
      · intro h
        cases h with
        | one h1 _ => rw [hu] at h1; simp at h1
        | stop h1 => exact ⟨0, by simp⟩
        | rep n h1 => rw [hu] at h1; cases h1; exact ⟨n, rfl⟩
    | none =>
      cases ts with
      | nil =>
        rw [accepts_end, OT.isOptional, unit_none hu]
        constructor
        · intro h; exact .stop (by simpa using h)
        · intro h
          generalize hts : ([] : List OT) = ts at h
          cases h with
          | one => simp at hts
          | stop h1 => simp [h1]
          | rep n h1 => rw [hu] at h1; simp at h1
      | cons x ts =>
        rw [accepts_one hu]
        constructor
        · rintro ⟨rfl, h⟩; exact .one hu ((ih ts).1 h)
        · intro h
          generalize hts : x :: ts = ts' at h
          cases h with
          | one h1 h2 => cases hts; exact ⟨rfl, (ih ts).2 h2⟩
          | stop h1 => simp at hts
          | rep n h1 => rw [hu] at h1; simp at h1

/-- C50: a mask's operands are consumed lowest bit first, before what was already expected. -/
theorem pushForMask_eq (entry : Nat → Option (List OT)) (mask : Word) (k : Nat) (p : Pattern) :
    pushForMask entry mask k p = Spec.maskOperands entry mask k ++ p := by
  induction k generalizing p with
  | zero => rfl
  | succ k ih =>
    rw [pushForMask, Spec.maskOperands, List.range_succ, List.flatMap_append]
    split
    · rename_i hb
      split
      · rename_i ops he
        rw [ih]; simp [Spec.maskOperands, hb, he, pushTypes]
      · rename_i he
        rw [ih]; simp [Spec.maskOperands, hb, he]
    · rename_i hb
      rw [ih]; simp [Spec.maskOperands, hb]

theorem and_bit (w : Word) (k : Nat) (hk : k < 32) : (w &&& (1#32 <<< k)) ≠ 0 ↔ w.getLsbD k = true := by
  constructor
  · intro h
    cases hr : w.getLsbD k
    · exfalso; apply h
      apply BitVec.eq_of_getLsbD_eq
      intro i hi
      rw [BitVec.getLsbD_and, BitVec.getLsbD_shiftLeft]
      by_cases hij : i = k
      · subst hij; simp [hr]
      · by_cases h2 : i < k
        · simp [h2]
        · have : (1#32).getLsbD (i - k) = false := by simp; omega
          simp [this]
    · rfl
  · intro h h0
    have := congrArg (fun x => x.getLsbD k) h0
    rw [BitVec.getLsbD_eq_getElem hk] at h
    simp [hk] at this
    rw [h] at this; simp at this

theorem xor_bit (w : Word) (k j : Nat) (hk : k < 32) (hj : j < k) :
    (w ^^^ (1#32 <<< k)).getLsbD j = w.getLsbD j := by
  rw [BitVec.getLsbD_xor, BitVec.getLsbD_shiftLeft]; simp [hj]

theorem maskOperands_congr (entry : Nat → Option (List OT)) (a b : Word) (k : Nat)
    (h : ∀ j, j < k → a.getLsbD j = b.getLsbD j) : Spec.maskOperands entry a k = Spec.maskOperands entry b k := by
  induction k with
  | zero => rfl
  | succ k ih =>
    have h1 := ih (fun j hj => h j (by omega))
    unfold Spec.maskOperands at h1 ⊢
    rw [List.range_succ, List.flatMap_append, List.flatMap_append, h1]
    simp [h k (by omega)]

theorem maskOperands_zero (entry : Nat → Option (List OT)) (k : Nat) : Spec.maskOperands entry 0 k = [] := by
  simp [Spec.maskOperands]

/-- C50: the mask loop of the binary parser expects the same operands. -/
theorem maskLoop_eq (G : Grammar) (t : OT) (unk : Bool) (k : Nat) (rem : Word) (p q : Pattern)
    (hk : k ≤ 32) (h : maskLoop G t unk k rem p = .ok q) :
    q = Spec.maskOperands (fun b => G.operand t (1#32 <<< b)) rem k ++ p ∧
    ∀ b, b < k → rem.getLsbD b = true → (G.operand t (1#32 <<< b)).isSome := by
  induction k generalizing rem p with
  | zero =>
    simp only [maskLoop] at h
    split at h <;> simp only [PR.ok.injEq, reduceCtorEq] at h
    exact ⟨by rw [← h]; rfl, by omega⟩
  | succ k ih =>
    simp only [maskLoop] at h
    split at h
    · rename_i h0
      simp only [PR.ok.injEq] at h
      subst h0
      exact ⟨by rw [maskOperands_zero, ← h]; rfl, by simp⟩
    · split at h
      · rename_i hb
        have hb := (and_bit rem k (by omega)).1 hb
        split at h
        · split at h <;> simp at h
        · rename_i ops ho
          obtain ⟨h1, h2⟩ := ih _ _ (by omega) h
          constructor
          · rw [h1, maskOperands_congr _ _ rem k (fun j hj => xor_bit rem k j (by omega) hj)]
            unfold Spec.maskOperands
            rw [List.range_succ, List.flatMap_append]
            simp only [List.flatMap_cons, List.flatMap_nil, hb, if_true, ho, Option.getD_some,
              List.append_nil, pushTypes, List.append_assoc]
          · intro b hbk hbs
            by_cases hbe : b = k
            · subst hbe; rw [ho]; rfl
            · exact h2 b (by omega) (by rw [xor_bit rem k b (by omega) (by omega)]; exact hbs)
      · rename_i hb
        have hb : rem.getLsbD k = false := by
          have := mt (and_bit rem k (by omega)).2 hb
          simpa using this
        obtain ⟨h1, h2⟩ := ih _ _ (by omega) h
        constructor
        · rw [h1]
          unfold Spec.maskOperands
          rw [List.range_succ, List.flatMap_append]
          simp [hb]
        · intro b hbk hbs
          by_cases hbe : b = k
          · subst hbe; rw [hb] at hbs; simp at hbs
          · exact h2 b (by omega) hbs

/-- C50: after an immediate, a result id is still expected, after as many operands as before;
everything else is optional. -/
theorem alternatePattern_spec (p : Pattern) :
    (.RESULT_ID ∈ alternatePattern p ↔ .RESULT_ID ∈ p) ∧
    (.RESULT_ID ∈ p → (alternatePattern p).idxOf .RESULT_ID = p.idxOf .RESULT_ID) ∧
    (∀ t ∈ alternatePattern p, t = .RESULT_ID ∨ t = .OPTIONAL_CIV) ∧
    (alternatePattern p).getLast? = some .OPTIONAL_CIV := by
  unfold alternatePattern
  split
  · rename_i h
    refine ⟨by simp [h], fun _ => ?_, ?_, by simp⟩
    · rw [List.idxOf_append]; simp
    · intro t ht
      simp only [List.mem_append, List.mem_replicate, List.mem_cons, List.not_mem_nil, or_false] at ht
      rcases ht with ⟨_, h⟩ | h | h <;> simp [h]
  · rename_i h
    simp [h]

/-! ### Concrete cases -/

/-- `OpSwitch`: selector, default, then (literal, label) pairs. -/
example : accepts [.ID, .ID, .VARIABLE_LITERAL_INTEGER_ID]
    [.ID, .ID, .OPTIONAL_TYPED_LITERAL_INTEGER, .ID, .OPTIONAL_TYPED_LITERAL_INTEGER, .ID] = true ∧
  accepts [.ID, .ID, .VARIABLE_LITERAL_INTEGER_ID]
    [.ID, .ID, .OPTIONAL_TYPED_LITERAL_INTEGER] = false ∧
  accepts [.ID, .OPTIONAL_ID] [.ID] = true ∧ accepts [.ID, .OPTIONAL_ID] [] = false := by decide

example : pushForMask (fun b => if b = 1 then some [.LITERAL_INTEGER] else if b = 3 then some [.ID] else none)
    0b1010#32 32 [.OPTIONAL_ID] = [.LITERAL_INTEGER, .ID, .OPTIONAL_ID] := by decide

example : alternatePattern [.TYPE_ID, .RESULT_ID, .ID] = [.OPTIONAL_CIV, .RESULT_ID, .OPTIONAL_CIV] := by decide

end Verif.Binary
