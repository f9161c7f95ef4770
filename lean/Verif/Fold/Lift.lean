import Verif.Fold.Scalar

set_option linter.unusedSimpArgs false
set_option linter.unusedVariables false

namespace Verif.Fold

open Spec

/-! ## Components -/

/-- The components of a constant. -/
def compsOf : Const → List SConst
  | .scalar c => [c]
  | .vec _ cs => cs
  | .nullVec n t => List.replicate n (.null t)

/-- `cs` are, component by component, constants of type `t` denoting `v`. -/
def CompsOk (cs : List SConst) (t : STy) (v : Val) : Prop :=
  cs.length = v.length ∧
  ∀ (k : Nat) a u, cs[k]? = some a → v[k]? = some u → SDenotes a u ∧ a.ty = t

theorem compsOf_ok {c : Const} {ty : Ty} {v : Val} (ht : ConstHasTy c ty) (hd : Denotes c v) :
    CompsOk (compsOf c) (elem ty) v := by
  match c, ty with
  | .scalar c, .scalar t =>
      obtain ⟨u, rfl, hu⟩ := hd
      refine ⟨rfl, ?_⟩
      intro k a u' hk hu'
      match k with
      | 0 => cases hk; cases hu'; exact ⟨hu, ht⟩
      | k + 1 => simp [compsOf] at hk
  | .scalar c, .vec .. => simp [ConstHasTy] at ht
  | .vec .., .scalar _ => simp [ConstHasTy] at ht
  | .nullVec .., .scalar _ => simp [ConstHasTy] at ht
  | .vec t' cs, .vec n t =>
      obtain ⟨rfl, hl, hts⟩ := ht
      refine ⟨hd.1, ?_⟩
      intro k a u hk hu
      exact ⟨hd.2 k a u hk hu, hts a (List.mem_of_getElem? hk)⟩
  | .nullVec n' t', .vec n t =>
      obtain ⟨rfl, rfl⟩ := ht
      refine ⟨by simp [compsOf, hd.1], ?_⟩
      intro k a u hk hu
      have ha := List.eq_of_mem_replicate (List.mem_of_getElem? hk)
      subst ha
      exact ⟨hd.2 u (List.mem_of_getElem? hu), rfl⟩

theorem compsOf_vec {c : Const} {n : Nat} {t : STy} (ht : ConstHasTy c (.vec n t)) :
    vectorComponents c = some (compsOf c) ∧ (compsOf c).length = n := by
  match c with
  | .scalar c => simp [ConstHasTy] at ht
  | .vec t' cs => exact ⟨rfl, ht.2.1⟩
  | .nullVec n' t' => exact ⟨rfl, by simp [compsOf, ht.1]⟩

theorem constHasTy_scalar {c : Const} {t : STy} (ht : ConstHasTy c (.scalar t)) :
    ∃ a, c = .scalar a ∧ a.ty = t := by
  match c with
  | .scalar c => exact ⟨c, rfl, ht⟩
  | .vec t' cs => simp [ConstHasTy] at ht
  | .nullVec n' t' => simp [ConstHasTy] at ht

theorem exists_list {α : Type} (n : Nat) (P : Nat → α → Prop) (h : ∀ k, k < n → ∃ u, P k u) :
    ∃ v : List α, v.length = n ∧ ∀ (k : Nat) u, v[k]? = some u → P k u := by
  refine ⟨List.ofFn (fun k : Fin n => Classical.choose (h k.1 k.2)), by simp, ?_⟩
  intro k u hk
  by_cases hkn : k < n
  · rw [List.getElem?_ofFn] at hk
    simp only [hkn, dif_pos, Option.some.injEq] at hk
    rw [← hk]
    exact Classical.choose_spec (h k hkn)
  · rw [List.getElem?_eq_none (by simp; omega)] at hk
    cases hk

/-- The constant may replace the instruction. -/
abbrev Final (i : Instr) (ρ : Nat → Val) (c : Const) : Prop := Replaces i ρ c

/-- Assembling the result from its components. -/
theorem final_of_comps {i : Instr} {ρ : Nat → Val} {c : Const} (hty : ConstHasTy c i.ty)
    (hlen : (compsOf c).length = dim i.ty)
    (h : ∀ (k : Nat) a, (compsOf c)[k]? = some a →
      ∃ u, SDenotes a u ∧ HasSTy u (elem i.ty) ∧
        ∀ us, (i.args.map fun o => ρ o.id).mapM (comp k) = some us →
          ∀ r, Spec.scalar i.op (elem i.ty) us = some r → u = r) : Final i ρ c := by
  refine ⟨hty, ?_⟩
  obtain ⟨v, hvl, hv⟩ := exists_list (dim i.ty)
    (fun k u => ∃ a, (compsOf c)[k]? = some a ∧ SDenotes a u ∧ HasSTy u (elem i.ty) ∧
      ∀ us, (i.args.map fun o => ρ o.id).mapM (comp k) = some us →
        ∀ r, Spec.scalar i.op (elem i.ty) us = some r → u = r) (by
      intro k hk
      have : k < (compsOf c).length := by omega
      obtain ⟨u, hu⟩ := h k _ (List.getElem?_eq_getElem this)
      exact ⟨u, _, List.getElem?_eq_getElem this, hu⟩)
  refine ⟨v, ?_, ⟨hvl, ?_⟩, ?_⟩
  · match c, hc : i.ty with
    | .scalar c, .scalar t =>
        rw [hc] at hvl
        match v, hvl with
        | [u], _ =>
            obtain ⟨a, ha, hd, _⟩ := hv 0 u rfl
            cases ha
            exact ⟨u, rfl, hd⟩
    | .scalar c, .vec .. => rw [hc] at hty; simp [ConstHasTy] at hty
    | .vec .., .scalar _ => rw [hc] at hty; simp [ConstHasTy] at hty
    | .nullVec .., .scalar _ => rw [hc] at hty; simp [ConstHasTy] at hty
    | .vec t' cs, .vec n t =>
        refine ⟨by rw [hvl]; exact hlen, ?_⟩
        intro k a u hk hu
        obtain ⟨a', ha', hd, _⟩ := hv k u hu
        have : (compsOf (.vec t' cs))[k]? = some a := hk
        rw [this] at ha'; cases ha'; exact hd
    | .nullVec n' t', .vec n t =>
        have hl : n' = dim i.ty := by rw [← hlen]; simp [compsOf]
        refine ⟨by rw [hvl, hl], ?_⟩
        intro u hu
        obtain ⟨k, hk⟩ := List.mem_iff_getElem?.mp hu
        obtain ⟨a, ha, hd, _⟩ := hv k u hk
        have := List.eq_of_mem_replicate (List.mem_of_getElem? ha)
        subst this; exact hd
  · intro u hu
    obtain ⟨k, hk⟩ := List.mem_iff_getElem?.mp hu
    obtain ⟨a, ha, hd, ht, _⟩ := hv k u hk
    exact ht
  · intro k hk us hus r hr
    have hkv : k < v.length := by omega
    obtain ⟨a, ha, hd, ht, hs⟩ := hv k _ (List.getElem?_eq_getElem hkv)
    rw [List.getElem?_eq_getElem hkv, hs us hus r hr]

/-! ## Component loops -/

theorem compsUnary_spec {rule : SConst → Option (Option SConst)} :
    ∀ {as rs : List SConst}, compsUnary rule as = some (some rs) →
      rs.length = as.length ∧
      ∀ (k : Nat) a r, as[k]? = some a → rs[k]? = some r → rule a = some (some r)
  | [], rs, h => by cases h; simp
  | a :: as, rs, h => by
      simp only [compsUnary] at h
      split at h
      · cases h
      · cases h
      · rename_i r hr
        split at h
        · cases h
        · cases h
        · rename_i rs' hrs
          cases h
          obtain ⟨h1, h2⟩ := compsUnary_spec hrs
          refine ⟨by simp [h1], ?_⟩
          intro k a' r' ha hr'
          match k with
          | 0 => cases ha; cases hr'; exact hr
          | k + 1 => exact h2 k a' r' ha hr'

theorem compsUnary_some {rule : SConst → Option (Option SConst)} :
    ∀ {as : List SConst}, (∀ a ∈ as, (rule a).isSome) → (compsUnary rule as).isSome
  | [], _ => rfl
  | a :: as, h => by
      have h1 := h a (by simp)
      have h2 := compsUnary_some (as := as) (fun b hb => h b (by simp [hb]))
      simp only [compsUnary]
      revert h1 h2
      cases rule a with
      | none => simp
      | some r => cases r with
        | none => simp
        | some r => cases compsUnary rule as with
          | none => simp
          | some rs => cases rs <;> simp

theorem compsUnary_ne {rule : SConst → Option (Option SConst)} :
    ∀ {as : List SConst}, (∀ a ∈ as, rule a ≠ some none) → compsUnary rule as ≠ some none
  | [], _ => by simp [compsUnary]
  | a :: as, h => by
      have h1 := h a (by simp)
      have h2 := compsUnary_ne (as := as) (fun b hb => h b (by simp [hb]))
      simp only [compsUnary]
      revert h1 h2
      cases rule a with
      | none => simp
      | some r => cases r with
        | none => simp
        | some r => cases compsUnary rule as with
          | none => simp
          | some rs => cases rs <;> simp

theorem compsBinary_spec {rule : SConst → SConst → Option (Option SConst)} :
    ∀ {as bs rs : List SConst}, compsBinary rule as bs = some (some rs) →
      rs.length = as.length ∧ rs.length = bs.length ∧
      ∀ (k : Nat) a b r, as[k]? = some a → bs[k]? = some b → rs[k]? = some r →
        rule a b = some (some r)
  | [], [], rs, h => by cases h; simp
  | [], b :: bs, rs, h => by cases h
  | a :: as, [], rs, h => by cases h
  | a :: as, b :: bs, rs, h => by
      simp only [compsBinary] at h
      split at h
      · cases h
      · cases h
      · rename_i r hr
        split at h
        · cases h
        · cases h
        · rename_i rs' hrs
          cases h
          obtain ⟨h1, h1', h2⟩ := compsBinary_spec hrs
          refine ⟨by simp [h1], by simp [h1'], ?_⟩
          intro k a' b' r' ha hb hr'
          match k with
          | 0 => cases ha; cases hb; cases hr'; exact hr
          | k + 1 => exact h2 k a' b' r' ha hb hr'

theorem compsBinary_some {rule : SConst → SConst → Option (Option SConst)} :
    ∀ {as bs : List SConst}, as.length = bs.length →
      (∀ (k : Nat) a b, as[k]? = some a → bs[k]? = some b → (rule a b).isSome) →
      (compsBinary rule as bs).isSome
  | [], [], _, _ => rfl
  | [], b :: bs, hl, _ => by simp at hl
  | a :: as, [], hl, _ => by simp at hl
  | a :: as, b :: bs, hl, h => by
      have h1 := h 0 a b rfl rfl
      have h2 := compsBinary_some (as := as) (bs := bs) (by simpa using hl)
        (fun k a' b' ha hb => h (k + 1) a' b' ha hb)
      simp only [compsBinary]
      revert h1 h2
      cases rule a b with
      | none => simp
      | some r => cases r with
        | none => simp
        | some r => cases compsBinary rule as bs with
          | none => simp
          | some rs => cases rs <;> simp

theorem compsBinary_ne {rule : SConst → SConst → Option (Option SConst)} :
    ∀ {as bs : List SConst},
      (∀ (k : Nat) a b, as[k]? = some a → bs[k]? = some b → rule a b ≠ some none) →
      compsBinary rule as bs ≠ some none
  | [], [], _ => by simp [compsBinary]
  | [], b :: bs, _ => by simp [compsBinary]
  | a :: as, [], _ => by simp [compsBinary]
  | a :: as, b :: bs, h => by
      have h1 := h 0 a b rfl rfl
      have h2 := compsBinary_ne (as := as) (bs := bs)
        (fun k a' b' ha hb => h (k + 1) a' b' ha hb)
      simp only [compsBinary]
      revert h1 h2
      cases rule a b with
      | none => simp
      | some r => cases r with
        | none => simp
        | some r => cases compsBinary rule as bs with
          | none => simp
          | some rs => cases rs <;> simp

theorem makeVec_some {t : STy} {cs : List SConst} {c : Const} (h : makeVec t cs = some c) :
    c = .vec t cs := by
  match cs with
  | [] => cases h
  | a :: as =>
      simp only [makeVec] at h
      split at h
      · cases h; rfl
      · cases h

theorem makeVec_same {t : STy} {cs : List SConst} (hne : cs ≠ []) (h : ∀ c ∈ cs, c.ty = t) :
    makeVec t cs = some (.vec t cs) := by
  match cs with
  | [] => exact absurd rfl hne
  | a :: as =>
      simp only [makeVec]
      rw [if_pos]
      simp only [List.all_eq_true, beq_iff_eq]
      intro d hd
      rw [h d hd, h a (by simp)]

/-! ## Shapes -/

/-- Same number of components. -/
def Shape (ty oty : Ty) : Prop :=
  match ty, oty with
  | .scalar _, .scalar _ => True
  | .vec n _, .vec m _ => n = m ∧ 2 ≤ n
  | _, _ => False

theorem shape_dim {ty oty : Ty} (h : Shape ty oty) : dim oty = dim ty := by
  match ty, oty with
  | .scalar _, .scalar _ => rfl
  | .vec n _, .vec m _ => exact h.1.symm
  | .scalar _, .vec .. => cases h
  | .vec .., .scalar _ => cases h

theorem comp_shape {ty oty : Ty} {v : Val} {k : Nat} (hv : HasTy v oty) (h : Shape ty oty)
    (hk : k < dim ty) : comp k v = v[k]? := by
  have hl : v.length = dim ty := by rw [hv.1, shape_dim h]
  match ty, oty with
  | .scalar _, .scalar _ =>
      match v, hl with
      | [u], _ =>
          have : k = 0 := by simp [dim] at hk; exact hk
          subst this; rfl
  | .vec n _, .vec m _ =>
      match v, hl with
      | [], _ => simp [comp]
      | [u], hl =>
          have := h.2
          simp [dim] at hl; omega
      | u :: u' :: r, _ => rfl
  | .scalar _, .vec .. => cases h
  | .vec .., .scalar _ => cases h

theorem wellTyped_shape {i : Instr} (h : WellTyped i) (hop : i.op ≠ .select) :
    ∀ o ∈ i.args, Shape i.ty o.ty := by
  intro o ho
  have hs := h.2
  unfold shapeRule at hs
  split at hs
  · rename_i t ht
    obtain ⟨t', ht'⟩ := hs o.ty (List.mem_map.mpr ⟨o, ho, rfl⟩)
    rw [ht, ht']; trivial
  · rename_i n t ht
    rcases hs.2.1 o.ty (List.mem_map.mpr ⟨o, ho, rfl⟩) with ⟨t', ht'⟩ | ⟨h', _⟩
    · rw [ht, ht']; exact ⟨rfl, hs.1⟩
    · exact absurd h' hop

theorem emit_of_ty {ty : Ty} {c : Const} (h : ConstHasTy c ty) : emit ty c = c := by
  match c, ty with
  | .scalar c, .scalar t =>
      cases h
      match c with
      | .int .. => rfl
      | .bool _ => rfl
      | .null _ => rfl
  | .scalar c, .vec .. => rfl
  | .vec .., .scalar _ => rfl
  | .nullVec .., .scalar _ => rfl
  | .vec t' cs, .vec n t => obtain ⟨rfl, _⟩ := h; rfl
  | .nullVec n' t', .vec n t => obtain ⟨rfl, rfl⟩ := h; rfl

/-- Outer form of a constant of type `ty`. -/
def Outer (c : Const) (ty : Ty) : Prop :=
  match c, ty with
  | .scalar _, .scalar _ => True
  | .vec t' cs, .vec n t => t' = t ∧ cs.length = n
  | _, _ => False

theorem constHasTy_of_outer {c : Const} {ty : Ty} (h : Outer c ty)
    (ht : ∀ a ∈ compsOf c, a.ty = elem ty) : ConstHasTy c ty := by
  match c, ty with
  | .scalar c, .scalar t => exact ht c (by simp [compsOf])
  | .scalar c, .vec .. => cases h
  | .vec .., .scalar _ => cases h
  | .nullVec .., .scalar _ => cases h
  | .vec t' cs, .vec n t => exact ⟨h.1, h.2, ht⟩
  | .nullVec n' t', .vec n t => cases h

theorem outer_length {c : Const} {ty : Ty} (h : Outer c ty) : (compsOf c).length = dim ty := by
  match c, ty with
  | .scalar c, .scalar t => rfl
  | .scalar c, .vec .. => cases h
  | .vec .., .scalar _ => cases h
  | .nullVec .., .scalar _ => cases h
  | .vec t' cs, .vec n t => exact h.2
  | .nullVec n' t', .vec n t => cases h

theorem applyBinary_spec {rule : STy → SConst → SConst → Option (Option SConst)} {ty ta tb : Ty}
    {a b c : Const} (ha : ConstHasTy a ta) (hb : ConstHasTy b tb) (hsa : Shape ty ta)
    (hsb : Shape ty tb) (h : applyBinary rule ty a b = some (some c)) :
    Outer c ty ∧ ∀ (k : Nat) x y r, (compsOf a)[k]? = some x → (compsOf b)[k]? = some y →
      (compsOf c)[k]? = some r → rule (elem ty) x y = some (some r) := by
  match ty, ta, tb with
  | .scalar t, .scalar _, .scalar _ =>
      obtain ⟨a, rfl, _⟩ := constHasTy_scalar ha
      obtain ⟨b, rfl, _⟩ := constHasTy_scalar hb
      simp only [applyBinary] at h
      cases hr : rule t a b with
      | none => rw [hr] at h; cases h
      | some r =>
          cases r with
          | none => rw [hr] at h; cases h
          | some r =>
              rw [hr] at h
              cases h
              refine ⟨trivial, ?_⟩
              intro k x y r' hx hy hr'
              match k with
              | 0 => cases hx; cases hy; cases hr'; exact hr
              | k + 1 => simp [compsOf] at hx
  | .vec n t, .vec na ta, .vec nb tb =>
      obtain ⟨hva, hla⟩ := compsOf_vec ha
      obtain ⟨hvb, hlb⟩ := compsOf_vec hb
      obtain ⟨rfl, _⟩ := hsa
      obtain ⟨rfl, _⟩ := hsb
      simp only [applyBinary, hva, hvb, Option.bind_eq_bind, Option.bind_some] at h
      cases hr : compsBinary (rule t) (compsOf a) (compsOf b) with
      | none => rw [hr] at h; cases h
      | some r =>
          cases r with
          | none => rw [hr] at h; cases h
          | some rs =>
              rw [hr] at h
              simp only [Option.bind_some, Option.some.injEq] at h
              have := makeVec_some h
              subst this
              obtain ⟨h1, h2, h3⟩ := compsBinary_spec hr
              refine ⟨⟨rfl, by omega⟩, ?_⟩
              intro k x y r' hx hy hr'
              exact h3 k x y r' hx hy hr'
  | .scalar _, .vec .., _ => cases hsa
  | .vec .., .scalar _, _ => cases hsa
  | .scalar _, .scalar _, .vec .. => cases hsb
  | .vec .., .vec .., .scalar _ => cases hsb

/-- Two constants and a rule that is right on each pair of components. -/
theorem binary_final {i : Instr} {ρ : Nat → Val} (hw : WellTyped i) (hc : Consistent i ρ)
    {x y : Operand} (hargs : i.args = [x, y]) (hop : i.op ≠ .select) {a b c : Const}
    (hxa : x.const = some a) (hyb : y.const = some b)
    {rule : STy → SConst → SConst → Option (Option SConst)}
    (hrule : ∀ (k : Nat) ca cb ua ub r, SDenotes ca ua → SDenotes cb ub →
      ca.ty = elem x.ty → cb.ty = elem y.ty →
      HasSTy ua (elem x.ty) → HasSTy ub (elem y.ty) →
      (ρ x.id)[k]? = some ua → (ρ y.id)[k]? = some ub →
      rule (elem i.ty) ca cb = some (some r) →
      r.ty = elem i.ty ∧ Good i.op (elem i.ty) [ua, ub] r)
    (h : applyBinary rule i.ty a b = some (some c)) : Final i ρ (emit i.ty c) := by
  have hx : x ∈ i.args := by simp [hargs]
  have hy : y ∈ i.args := by simp [hargs]
  have sx := wellTyped_shape hw hop x hx
  have sy := wellTyped_shape hw hop y hy
  obtain ⟨vx, cx, _⟩ := hc x hx
  obtain ⟨vy, cy, _⟩ := hc y hy
  obtain ⟨ta, da⟩ := cx a hxa
  obtain ⟨tb, db⟩ := cy b hyb
  obtain ⟨ho, hk⟩ := applyBinary_spec ta tb sx sy h
  obtain ⟨la, ca⟩ := compsOf_ok ta da
  obtain ⟨lb, cb⟩ := compsOf_ok tb db
  have hlen := outer_length ho
  have lx : (ρ x.id).length = dim i.ty := by rw [vx.1, shape_dim sx]
  have ly : (ρ y.id).length = dim i.ty := by rw [vy.1, shape_dim sy]
  have all : ∀ (k : Nat) r, (compsOf c)[k]? = some r → ∃ ua ub,
      (ρ x.id)[k]? = some ua ∧ (ρ y.id)[k]? = some ub ∧
      r.ty = elem i.ty ∧ Good i.op (elem i.ty) [ua, ub] r := by
    intro k r hr
    have hkd : k < dim i.ty := by
      rw [← hlen]; exact (List.getElem?_eq_some_iff.mp hr).1
    have e1 : (compsOf a)[k]? = some _ := List.getElem?_eq_getElem (by omega)
    have e2 : (compsOf b)[k]? = some _ := List.getElem?_eq_getElem (by omega)
    have e3 : (ρ x.id)[k]? = some _ := List.getElem?_eq_getElem (by omega)
    have e4 : (ρ y.id)[k]? = some _ := List.getElem?_eq_getElem (by omega)
    obtain ⟨d1, t1⟩ := ca k _ _ e1 e3
    obtain ⟨d2, t2⟩ := cb k _ _ e2 e4
    refine ⟨_, _, e3, e4, ?_⟩
    exact hrule k _ _ _ _ r d1 d2 t1 t2 (vx.2 _ (List.mem_of_getElem? e3))
      (vy.2 _ (List.mem_of_getElem? e4)) e3 e4 (hk k _ _ _ e1 e2 hr)
  have hty : ConstHasTy c i.ty := by
    apply constHasTy_of_outer ho
    intro r hr
    obtain ⟨k, hk'⟩ := List.mem_iff_getElem?.mp hr
    obtain ⟨_, _, _, _, h5, _⟩ := all k r hk'
    exact h5
  rw [emit_of_ty hty]
  refine final_of_comps hty hlen ?_
  intro k r hr
  have hkd : k < dim i.ty := by
    rw [← hlen]; exact (List.getElem?_eq_some_iff.mp hr).1
  obtain ⟨ua, ub, e3, e4, _, u, hu1, hu2, hu3⟩ := all k r hr
  refine ⟨u, hu1, hu2, ?_⟩
  intro us hus
  rw [hargs] at hus
  simp only [List.map_cons, List.map_nil, List.mapM_cons, List.mapM_nil, comp_shape vx sx hkd,
    comp_shape vy sy hkd, e3, e4] at hus
  cases hus
  exact hu3

theorem foldUnaryOp_spec {rule : STy → SConst → Option (Option SConst)} {i : Instr} {x : Operand}
    {a c : Const} (hargs : i.args = [x]) (hxa : x.const = some a) (ha : ConstHasTy a x.ty)
    (hs : Shape i.ty x.ty) (h : foldUnaryOp rule i = some (some c)) :
    Outer c i.ty ∧ ∀ (k : Nat) x r, (compsOf a)[k]? = some x →
      (compsOf c)[k]? = some r → rule (elem i.ty) x = some (some r) := by
  unfold foldUnaryOp at h
  simp only [hargs, hxa] at h
  match hty : i.ty, hxt : x.ty with
  | .scalar t, .scalar _ =>
      rw [hxt] at ha
      obtain ⟨a, rfl, _⟩ := constHasTy_scalar ha
      simp only [hty] at h
      cases hr : rule t a with
      | none => rw [hr] at h; cases h
      | some r =>
          cases r with
          | none => rw [hr] at h; cases h
          | some r =>
              rw [hr] at h
              cases h
              refine ⟨trivial, ?_⟩
              intro k x r' hx hr'
              match k with
              | 0 => cases hx; cases hr'; exact hr
              | k + 1 => simp [compsOf] at hx
  | .vec n t, .vec na ta =>
      rw [hxt] at ha
      obtain ⟨hva, hla⟩ := compsOf_vec ha
      rw [hty, hxt] at hs
      obtain ⟨rfl, _⟩ := hs
      simp only [hty, hva, Option.bind_eq_bind, Option.bind_some] at h
      cases hr : compsUnary (rule t) (compsOf a) with
      | none => rw [hr] at h; cases h
      | some r =>
          cases r with
          | none => rw [hr] at h; cases h
          | some rs =>
              rw [hr] at h
              simp only [Option.bind_some, Option.some.injEq] at h
              have := makeVec_some h
              subst this
              obtain ⟨h1, h3⟩ := compsUnary_spec hr
              refine ⟨⟨rfl, by omega⟩, ?_⟩
              intro k x r' hx hr'
              exact h3 k x r' hx hr'
  | .scalar _, .vec .. => rw [hty, hxt] at hs; cases hs
  | .vec .., .scalar _ => rw [hty, hxt] at hs; cases hs

theorem retype_good {op : Op} {t : STy} {us : List SVal} {c : SConst} (h : Good op t us c)
    (ht : c.ty = t ∨ ∃ t', c = .null t') : (c.retype t).ty = t ∧ Good op t us (c.retype t) := by
  rcases ht with ht | ⟨t', rfl⟩
  · have : c.retype t = c := by
      subst ht
      match c with
      | .int .. => rfl
      | .bool _ => rfl
      | .null _ => rfl
    rw [this]; exact ⟨ht, h⟩
  · refine ⟨rfl, ?_⟩
    obtain ⟨u, h1, h2, h3⟩ := h
    refine ⟨u, ?_, h2, h3⟩
    match t, t', u with
    | .bool, .bool, .bool b => exact h1
    | .int w s, .int w' s', .int wu x => exact ⟨h2.symm, h1.2⟩
    | .int .., _, .bool _ => cases h2
    | .bool, _, .int .. => cases h2
    | .bool, .int .., .bool _ => simp [SDenotes] at h1
    | .int .., .bool, .int .. => simp [SDenotes] at h1

/-- One constant and a rule that is right on each component. -/
theorem unary_final {i : Instr} {ρ : Nat → Val} (hw : WellTyped i) (hc : Consistent i ρ)
    {x : Operand} (hargs : i.args = [x]) (hop : i.op ≠ .select) {a c : Const}
    (hxa : x.const = some a) {rule : STy → SConst → Option (Option SConst)}
    (hrule : ∀ (k : Nat) ca ua r, SDenotes ca ua →
      ca.ty = elem x.ty → HasSTy ua (elem x.ty) →
      (ρ x.id)[k]? = some ua → rule (elem i.ty) ca = some (some r) →
      (r.ty = elem i.ty ∨ ((∃ t, i.ty = .scalar t) ∧ ∃ t', r = .null t')) ∧
      Good i.op (elem i.ty) [ua] r)
    (h : foldUnaryOp rule i = some (some c)) : Final i ρ (emit i.ty c) := by
  have hx : x ∈ i.args := by simp [hargs]
  have sx := wellTyped_shape hw hop x hx
  obtain ⟨vx, cx, _⟩ := hc x hx
  obtain ⟨ta, da⟩ := cx a hxa
  obtain ⟨ho, hk⟩ := foldUnaryOp_spec hargs hxa ta sx h
  obtain ⟨la, ca⟩ := compsOf_ok ta da
  have hlen := outer_length ho
  have lx : (ρ x.id).length = dim i.ty := by rw [vx.1, shape_dim sx]
  have all : ∀ (k : Nat) r, (compsOf c)[k]? = some r → ∃ ua,
      (ρ x.id)[k]? = some ua ∧
      (r.ty = elem i.ty ∨ ((∃ t, i.ty = .scalar t) ∧ ∃ t', r = .null t')) ∧
      Good i.op (elem i.ty) [ua] r := by
    intro k r hr
    have hkd : k < dim i.ty := by
      rw [← hlen]; exact (List.getElem?_eq_some_iff.mp hr).1
    have e1 : (compsOf a)[k]? = some _ := List.getElem?_eq_getElem (by omega)
    have e3 : (ρ x.id)[k]? = some _ := List.getElem?_eq_getElem (by omega)
    obtain ⟨d1, t1⟩ := ca k _ _ e1 e3
    refine ⟨_, e3, ?_⟩
    exact hrule k _ _ r d1 t1 (vx.2 _ (List.mem_of_getElem? e3)) e3 (hk k _ _ e1 hr)
  have fin : ∀ c' : Const, Outer c' i.ty →
      (∀ (k : Nat) r', (compsOf c')[k]? = some r' → ∃ ua, (ρ x.id)[k]? = some ua ∧
        r'.ty = elem i.ty ∧ Good i.op (elem i.ty) [ua] r') → Final i ρ c' := by
    intro c' ho' hall
    have hlen' := outer_length ho'
    refine final_of_comps (constHasTy_of_outer ho' ?_) hlen' ?_
    · intro r hr
      obtain ⟨k, hk'⟩ := List.mem_iff_getElem?.mp hr
      obtain ⟨_, _, h5, _⟩ := hall k r hk'
      exact h5
    · intro k r hr
      have hkd : k < dim i.ty := by
        rw [← hlen']; exact (List.getElem?_eq_some_iff.mp hr).1
      obtain ⟨ua, e3, _, u, hu1, hu2, hu3⟩ := hall k r hr
      refine ⟨u, hu1, hu2, ?_⟩
      intro us hus
      rw [hargs] at hus
      simp only [List.map_cons, List.map_nil, List.mapM_cons, List.mapM_nil,
        comp_shape vx sx hkd, e3] at hus
      cases hus
      exact hu3
  match c, hty : i.ty with
  | .scalar r, .scalar t =>
      apply fin
      · rw [hty]; trivial
      · intro k r' hr'
        match k with
        | 0 =>
            obtain ⟨ua, e, h1, h2⟩ := all 0 r rfl
            simp only [emit, compsOf, List.getElem?_cons_zero, Option.some.injEq] at hr'
            rw [← hr']
            rw [hty] at h1 h2 ⊢
            obtain ⟨g1, g2⟩ := retype_good h2 (by
              rcases h1 with h1 | ⟨_, h1⟩
              · exact Or.inl h1
              · exact Or.inr h1)
            exact ⟨ua, e, g1, g2⟩
        | k + 1 => simp [emit, compsOf] at hr'
  | .vec t' cs, .vec n t =>
      have he : emit (.vec n t) (.vec t' cs) = .vec t' cs := by
        rw [hty] at ho
        obtain ⟨rfl, _⟩ := ho; rfl
      rw [he]
      apply fin _ (by rw [hty] at ho ⊢; exact ho)
      intro k r hr
      obtain ⟨ua, e, h1, h2⟩ := all k r hr
      rcases h1 with h1 | ⟨⟨_, h1⟩, _⟩
      · exact ⟨ua, e, h1, h2⟩
      · rw [hty] at h1; cases h1
  | .scalar _, .vec .. => rw [hty] at ho; cases ho
  | .vec .., .scalar _ => rw [hty] at ho; cases ho
  | .nullVec .., .scalar _ => rw [hty] at ho; cases ho
  | .nullVec .., .vec .. => rw [hty] at ho; cases ho

end Verif.Fold
