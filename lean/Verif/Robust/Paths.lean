import Verif.Robust.Lemmas

set_option linter.unusedSimpArgs false
set_option linter.unusedVariables false

namespace Verif.Robust

open Spec

theorem typeAt_append (t : Ty) (p q : List Int) :
    typeAt t (p ++ q) = (typeAt t p).bind fun t' => typeAt t' q := by
  induction p generalizing t with
  | nil => simp [typeAt]
  | cons i p ih =>
    cases t <;> simp only [List.cons_append, typeAt, ih, Option.bind_none]
    split
    · rfl
    · split <;> simp [ih]

theorem inBounds_append (e : Env) (r : Nat) (pre : List Int) (t : Ty) (p q : List Int) {t' : Ty}
    (h : typeAt t p = some t') :
    InBoundsFrom e r pre t (p ++ q) ↔ InBoundsFrom e r pre t p ∧ InBoundsFrom e r (pre ++ p) t' q := by
  induction p generalizing t pre with
  | nil => simp [typeAt] at h; subst h; simp [InBoundsFrom]
  | cons i p ih =>
    cases t with
    | scalar => simp [typeAt] at h
    | fixed n el => simp [InBoundsFrom, ih _ _ (by simpa [typeAt] using h), and_assoc]
    | array n el => simp [InBoundsFrom, ih _ _ (by simpa [typeAt] using h), and_assoc]
    | runtime el => simp [InBoundsFrom, ih _ _ (by simpa [typeAt] using h), and_assoc]
    | struct ts =>
      simp only [typeAt] at h
      split at h
      · cases h
      · split at h
        · rename_i t1 ht1
          simp [InBoundsFrom, ht1, ih _ _ h, and_assoc]
        · cases h

theorem evalList_append (c e loc) (a b : List Ix) :
    evalList c e loc (a ++ b) =
      (evalList c e loc a).bind fun x => (evalList c e loc b).map fun y => x ++ y := by
  induction a with
  | nil => simp [evalList]
  | cons i a ih =>
    simp only [List.cons_append, evalList, ih]
    cases eval c e loc i <;> simp
    cases evalList c e loc a <;> simp
    cases evalList c e loc b <;> simp

theorem evalList_length {c e loc} : ∀ {a : List Ix} {v}, evalList c e loc a = some v →
    v.length = a.length
  | [], v, h => by simp [evalList] at h; subst h; rfl
  | i :: a, v, h => by
    simp only [evalList] at h
    cases h1 : eval c e loc i <;> simp [h1] at h
    cases h2 : evalList c e loc a <;> simp [h2] at h
    subst h
    simp [evalList_length h2]

theorem evalList_take {c e loc} {a : List Ix} {v} (k : Nat) (h : evalList c e loc a = some v) :
    evalList c e loc (a.take k) = some (v.take k) := by
  have h1 := evalList_append c e loc (a.take k) (a.drop k)
  rw [List.take_append_drop, h] at h1
  cases h2 : evalList c e loc (a.take k) <;> simp [h2] at h1
  rename_i x
  cases h3 : evalList c e loc (a.drop k) <;> simp [h3] at h1
  rename_i y
  have := evalList_length h2
  have h4 := evalList_length h
  by_cases hk : k ≤ a.length
  · simp at this
    rw [h1, List.take_left' (by omega)]
  · have h5 := evalList_length h3
    simp at h5
    have : y = [] := by
      apply List.length_eq_zero_iff.mp; omega
    subst this
    simp at h1
    rw [List.take_of_length_le (by omega), h1]

mutual
/-- All pointers whose array lengths are used. -/
def Uses (S : Nat → Prop) : Ix → Prop
  | .id _ => True
  | .lit _ _ => True
  | .convert _ _ x => Uses S x
  | .sub a b => Uses S a ∧ Uses S b
  | .umin a b => Uses S a ∧ Uses S b
  | .sclamp a b d => Uses S a ∧ Uses S b ∧ Uses S d
  | .length base idx _ => S base ∧ UsesList S idx
def UsesList (S : Nat → Prop) : List Ix → Prop
  | [] => True
  | i :: is => Uses S i ∧ UsesList S is
end

mutual
theorem eval_congr {c e loc loc'} {S : Nat → Prop} (h : ∀ p, S p → loc p = loc' p) :
    ∀ i, Uses S i → eval c e loc i = eval c e loc' i
  | .id _, _ => by simp [eval]
  | .lit _ _, _ => by simp [eval]
  | .convert _ _ x, u => by simp only [Uses] at u; simp only [eval, eval_congr h x u]
  | .sub a b, u => by
    simp only [Uses] at u; simp only [eval, eval_congr h a u.1, eval_congr h b u.2]
  | .umin a b, u => by
    simp only [Uses] at u; simp only [eval, eval_congr h a u.1, eval_congr h b u.2]
  | .sclamp a b d, u => by
    simp only [Uses] at u
    simp only [eval, eval_congr h a u.1, eval_congr h b u.2.1, eval_congr h d u.2.2]
  | .length base idx m, u => by
    simp only [Uses] at u
    simp only [eval, evalList_congr h idx u.2, h base u.1]
theorem evalList_congr {c e loc loc'} {S : Nat → Prop} (h : ∀ p, S p → loc p = loc' p) :
    ∀ i, UsesList S i → evalList c e loc i = evalList c e loc' i
  | [], _ => by simp [evalList]
  | i :: is, u => by
    simp only [UsesList] at u
    simp only [evalList, eval_congr h i u.1, evalList_congr h is u.2]
end

mutual
theorem uses_mono {S T : Nat → Prop} (h : ∀ p, S p → T p) : ∀ i, Uses S i → Uses T i
  | .id _, _ => trivial
  | .lit _ _, _ => trivial
  | .convert _ _ x, u => by simp only [Uses] at *; exact uses_mono h x u
  | .sub a b, u => by simp only [Uses] at *; exact ⟨uses_mono h a u.1, uses_mono h b u.2⟩
  | .umin a b, u => by simp only [Uses] at *; exact ⟨uses_mono h a u.1, uses_mono h b u.2⟩
  | .sclamp a b d, u => by
    simp only [Uses] at *
    exact ⟨uses_mono h a u.1, uses_mono h b u.2.1, uses_mono h d u.2.2⟩
  | .length base idx m, u => by
    simp only [Uses] at *
    exact ⟨h base u.1, usesList_mono h idx u.2⟩
theorem usesList_mono {S T : Nat → Prop} (h : ∀ p, S p → T p) : ∀ i, UsesList S i → UsesList T i
  | [], _ => trivial
  | i :: is, u => by
    simp only [UsesList] at *
    exact ⟨uses_mono h i u.1, usesList_mono h is u.2⟩
end

theorem usesList_append {S : Nat → Prop} : ∀ {a b : List Ix},
    UsesList S (a ++ b) ↔ UsesList S a ∧ UsesList S b
  | [], b => by simp [UsesList]
  | i :: a, b => by simp [UsesList, usesList_append (a := a), and_assoc]

theorem usesList_take {S : Nat → Prop} {a : List Ix} (k : Nat) (h : UsesList S a) :
    UsesList S (a.take k) := by
  rw [← List.take_append_drop k a, usesList_append] at h
  exact h.1

theorem clampLiteral_uses {c : Ctx} {n count i} (S : Nat → Prop) (h : c.clampLiteral n count = .ok i) :
    Uses S i := by
  unfold Ctx.clampLiteral at h
  simp only at h
  repeat' split at h
  all_goals first | (cases h; done) | (cases h; simp [Uses])

theorem clampDynamic_uses {c : Ctx} {n cx cw} {S : Nat → Prop} (h : Uses S cx) :
    Uses S (c.clampDynamic n cx cw) := by
  unfold Ctx.clampDynamic
  simp only [Uses, and_true, true_and]
  repeat' split
  all_goals simp [Uses, h]

theorem clampArray_uses {c : Ctx} {n len i} (S : Nat → Prop) (h : c.clampArray n len = .ok i) :
    Uses S i := by
  unfold Ctx.clampArray at h
  split at h
  · cases h
  · split at h
    · exact clampLiteral_uses S h
    · cases h
  · cases h
    exact clampDynamic_uses (by simp [Uses])

/-- The types on the way are those which the pass computes. -/
def SameTypes (c : Ctx) (t : Ty) (idx : List Ix) (vs : List Int) : Prop :=
  ∀ k, c.typeOf t (idx.take k) = typeAt t (vs.take k)

/-- How a pointer which is settled is made, and where it points to. -/
def DefOk (c : Ctx) (e : Env) (S : Nat → Prop) (loc : Nat → Loc) (l : Loc) : PDef → Prop
  | .chain base idx => S base ∧ UsesList S idx ∧ ∃ vs, evalList c e loc idx = some vs ∧
      l = ⟨(loc base).root, (loc base).path ++ vs⟩ ∧ SameTypes c (c.pointee base) idx vs
  | .copy src => S src ∧ l = loc src
  | .other => l.path = []

/-- The pointers in `S` are settled. -/
structure Inv (c : Ctx) (e : Env) (S : Nat → Prop) (defs : Nat → PDef) (loc : Nat → Loc) : Prop where
  defn : ∀ p, S p → DefOk c e S loc (loc p) (defs p)
  type : ∀ p, S p → typeAt (c.pointee (loc p).root) (loc p).path = some (c.pointee p)
  bounds : ∀ p, S p → InBounds c e (loc p)
  valid : ∀ p, S p → ValidType c e (c.pointee (loc p).root)

theorem unwind_sound {c e S defs loc} (inv : Inv c e S defs loc) :
    ∀ (fuel : Nat) (d : PDef) (l : Loc) (steps : Nat) (b : Nat) (is : List Ix),
    DefOk c e S loc l d → unwind defs fuel d steps = .ok (b, is) →
    S b ∧ UsesList S is ∧ ∃ vs drop, evalList c e loc is = some vs ∧ (loc b).root = l.root ∧
      (loc b).path ++ vs ++ drop = l.path ∧ drop.length = steps ∧
      c.typeOf (c.pointee b) is = typeAt (c.pointee b) vs
  | 0, d, l, steps, b, is, _, h => by cases d <;> simp [unwind] at h
  | fuel + 1, .chain base idx, l, steps, b, is, hd, h => by
    obtain ⟨hS, hU, vs, hvs, hl, hT⟩ := hd
    have hlen := evalList_length hvs
    simp only [unwind] at h
    split at h
    · rename_i heq
      cases h
      exact ⟨hS, trivial, [], vs, by simp [evalList], by simp [hl], by simp [hl], by omega,
        by simp [Ctx.typeOf, typeAt]⟩
    · split at h
      · obtain ⟨h1, h2, vs', drop, h3, h4, h5, h6, h7⟩ :=
          unwind_sound inv fuel _ (loc base) _ b is (inv.defn base hS) h
        refine ⟨h1, h2, vs', drop ++ vs, h3, by simp [h4, hl], ?_, by simp; omega, h7⟩
        rw [hl, ← h5]; simp
      · cases h
        refine ⟨hS, usesList_take _ hU, vs.take (idx.length - steps), vs.drop (idx.length - steps),
          evalList_take _ hvs, by simp [hl], by simp [hl], by simp; omega, hT _⟩
  | fuel + 1, .copy src, l, steps, b, is, hd, h => by
    simp only [unwind] at h
    obtain ⟨hS, hl⟩ := hd
    subst hl
    exact unwind_sound inv fuel _ _ _ b is (inv.defn src hS) h
  | fuel + 1, .other, l, steps, b, is, hd, h => by simp [unwind] at h

theorem typeOf_append (c : Ctx) (t : Ty) (p q : List Ix) :
    c.typeOf t (p ++ q) = (c.typeOf t p).bind fun t' => c.typeOf t' q := by
  induction p generalizing t with
  | nil => simp [Ctx.typeOf]
  | cons i p ih =>
    cases t <;> simp only [List.cons_append, Ctx.typeOf, ih, Option.bind_none]
    split <;> simp [ih]

theorem sameTypes_snoc {c t idx vs i v t1} (hlen : vs.length = idx.length) (h : SameTypes c t idx vs)
    (ht : typeAt t vs = some t1) (hi : c.typeOf t1 [i] = typeAt t1 [v]) :
    SameTypes c t (idx ++ [i]) (vs ++ [v]) := by
  intro k
  by_cases hk : k ≤ idx.length
  · rw [List.take_append_of_le_length hk, List.take_append_of_le_length (by omega)]
    exact h k
  · rw [List.take_of_length_le (by simp; omega), List.take_of_length_le (by simp; omega)]
    have h1 := h idx.length
    rw [List.take_length, ← hlen, List.take_length] at h1
    rw [typeOf_append, typeAt_append, h1, ht]
    exact hi

theorem evalList_snoc {c e loc idx vs i v} (h : evalList c e loc idx = some vs)
    (hv : eval c e loc i = some v) : evalList c e loc (idx ++ [i]) = some (vs ++ [v.signed]) := by
  rw [evalList_append, h]; simp [evalList, hv]

/-- What is known while the indices are clamped: those in `done` are clamped. -/
structure Part (c : Ctx) (e : Env) (S : Nat → Prop) (loc : Nat → Loc) (base : Nat) (t : Ty)
    (done : List Ix) (dv : List Int) : Prop where
  uses : UsesList S done
  eval : evalList c e loc done = some dv
  type : typeAt (c.pointee base) dv = some t
  bounds : InBounds c e ⟨(loc base).root, (loc base).path ++ dv⟩
  same : SameTypes c (c.pointee base) done dv

theorem Part.snoc {c e S defs loc base t done dv} (inv : Inv c e S defs loc) (hS : S base)
    (P : Part c e S loc base t done dv)
    {i v t'} (hu : Uses S i) (hv : Spec.eval c e loc i = some v) (ht : typeAt t [v.signed] = some t')
    (hi : c.typeOf t [i] = some t')
    (hb : InBoundsFrom e (loc base).root ((loc base).path ++ dv) t [v.signed]) :
    Part c e S loc base t' (done ++ [i]) (dv ++ [v.signed]) where
  uses := usesList_append.mpr ⟨P.uses, hu, trivial⟩
  eval := evalList_snoc P.eval hv
  type := by rw [typeAt_append, P.type]; exact ht
  bounds := by
    have h1 : typeAt (c.pointee (loc base).root) ((loc base).path ++ dv) = some t := by
      rw [typeAt_append, inv.type base hS]; exact P.type
    have := (inBounds_append e (loc base).root [] (c.pointee (loc base).root)
      ((loc base).path ++ dv) [v.signed] h1).mpr ⟨P.bounds, by simpa using hb⟩
    simpa [InBounds] using this
  same := sameTypes_snoc (evalList_length P.eval) P.same P.type (by rw [hi, ht])

theorem indexForType_eq {c e} (k : Known c e) {n b m} (h : c.const n = some (.lit b))
    (h0 : 0 ≤ V.signed ⟨c.width n, e.val n⟩) (hm : V.signed ⟨c.width n, e.val n⟩ < m)
    (hb : m < 65536) :
    c.indexForType (.id n) = (V.signed ⟨c.width n, e.val n⟩).toNat := by
  have h1 := signed_nonneg (k.width n) (k.bits n) h0
  have h2 := k.lit n b h
  simp only [Ctx.indexForType, h, readUnsigned]
  rw [h1.2] at hm ⊢
  split
  · simp only [toSigned]
    rw [← h2, if_pos h1.1]
    have h3 := pow_mono (show 32 ≤ (if c.width n ≤ 32 then 32 else 64) by split <;> omega)
    generalize (if c.width n ≤ 32 then 32 else 64) = q at *
    have h4 : ((2 ^ q : Nat) : Int) = (2 : Int) ^ q := by simp
    have h5 : (2 : Nat) ^ 32 = 4294967296 := rfl
    rw [Int.emod_eq_of_lt (by omega) (by omega)]
    omega
  · have h5 : (2 : Nat) ^ 32 = 4294967296 := rfl
    omega

end Verif.Robust
