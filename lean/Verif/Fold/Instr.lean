import Verif.Fold.Words

set_option linter.unusedSimpArgs false
set_option linter.unusedVariables false

namespace Verif.Fold

open Spec

theorem tryRules_mem {i : Instr} {c : Const} : ∀ {rs : List (Instr → Option (Option Const))},
    tryRules i rs = some (some c) → ∃ r ∈ rs, r i = some (some c)
  | [], h => by cases h
  | r :: rs, h => by
      simp only [tryRules] at h
      split at h
      · cases h
      · rename_i c' hr
        cases h
        exact ⟨r, by simp, hr⟩
      · obtain ⟨r', h1, h2⟩ := tryRules_mem h
        exact ⟨r', by simp [h1], h2⟩

/-! ## Constants determine their value -/

def STy.ok : STy → Prop
  | .bool => True
  | .int w _ => Width w

theorem sdenotes_inj {c : SConst} {u u' : SVal} {t : STy} (ht : t.ok) (h : SDenotes c u)
    (h' : SDenotes c u') (hu : HasSTy u t) (hu' : HasSTy u' t) : u = u' := by
  match t, u, u' with
  | .bool, .bool b, .bool b' =>
      match c with
      | .bool d => cases h; cases h'; rfl
      | .null .bool => cases h; cases h'; rfl
      | .null (.int ..) => cases h
      | .int .. => cases h
  | .int w s, .int w1 x, .int w2 y =>
      cases hu; cases hu'
      obtain ⟨z, h1, h2, _⟩ := zeroExtended_spec ht h
      obtain ⟨z', h1', h2', _⟩ := zeroExtended_spec ht h'
      rw [h1] at h1'
      cases h1'
      rw [← h2, ← h2']
  | .bool, .int .., _ => cases hu
  | .bool, .bool .., .int .. => cases hu'
  | .int .., .bool .., _ => cases hu
  | .int .., .int .., .bool _ => cases hu'

def zeroVal : STy → SVal
  | .bool => .bool false
  | .int w _ => .int w 0#w

theorem isZero_val {c : SConst} {u : SVal} {t : STy} (ht : t.ok) (h : SDenotes c u)
    (hu : HasSTy u t) (hz : c.isZero = true) : u = zeroVal t := by
  match t, u with
  | .bool, .bool b =>
      match c with
      | .bool d => cases h; simp [SConst.isZero] at hz; subst hz; rfl
      | .null .bool => cases h; rfl
      | .null (.int ..) => cases h
      | .int .. => cases h
  | .int w s, .int w1 x =>
      cases hu
      obtain ⟨z, h1, h2, -⟩ := zeroExtended_spec ht h
      have hz0 : z = 0#64 := by
        match c with
        | .bool _ => cases h
        | .null .bool => cases h
        | .null (.int w' s') =>
            simp only [zeroExtended] at h1
            split at h1 <;> cases h1; rfl
        | .int w' s' ws =>
            simp only [SConst.isZero, List.all_eq_true, beq_iff_eq] at hz
            simp only [zeroExtended] at h1
            split at h1
            · split at h1
              · rename_i x'
                cases h1
                rw [hz x' (by simp)]; rfl
              · cases h1
            · split at h1
              · split at h1
                · rename_i lo hi
                  cases h1
                  rw [hz lo (by simp), hz hi (by simp)]; decide
                · cases h1
              · cases h1
      rw [← h2, hz0]
      simp [zeroVal]
  | .bool, .int .. => cases hu
  | .int .., .bool _ => cases hu

/-! ## Arithmetic -/

theorem arith_elem {op : Op} (hop : op.arith) {t : STy} {ts : List STy} (h : elemRule op t ts) :
    ∃ w s s1 s2, Width w ∧ t = .int w s ∧ ts = [.int w s1, .int w s2] ∧
      (op = .uDiv ∨ op = .uMod → s = false ∧ s1 = false ∧ s2 = false) := by
  rcases hop with rfl | rfl | rfl | rfl | rfl | rfl | rfl | rfl <;> simp only [elemRule] at h
  case inr.inr.inr.inl | inr.inr.inr.inr.inl =>
    obtain ⟨w, h1, h2, h3⟩ := h
    exact ⟨w, false, false, false, h1, h2, h3, by simp⟩
  all_goals
    obtain ⟨w, s, s1, s2, h1, h2, h3⟩ := h
    exact ⟨w, s, s1, s2, h1, h2, h3, by simp⟩

theorem map_two {α β : Type} {f : α → β} {l : List α} {a b : β} (h : l.map f = [a, b]) :
    ∃ x y, l = [x, y] ∧ f x = a ∧ f y = b := by
  match l with
  | [] => cases h
  | [_] => cases h
  | [x, y] => cases h; exact ⟨x, y, rfl, rfl, rfl⟩
  | _ :: _ :: _ :: _ => simp at h

theorem map_one {α β : Type} {f : α → β} {l : List α} {a : β} (h : l.map f = [a]) :
    ∃ x, l = [x] ∧ f x = a := by
  match l with
  | [] => cases h
  | [x] => cases h; exact ⟨x, rfl, rfl⟩
  | _ :: _ :: _ => simp at h

theorem map_three {α β : Type} {f : α → β} {l : List α} {a b c : β} (h : l.map f = [a, b, c]) :
    ∃ x y z, l = [x, y, z] ∧ f x = a ∧ f y = b ∧ f z = c := by
  match l with
  | [] => cases h
  | [_] => cases h
  | [_, _] => cases h
  | [x, y, z] => cases h; exact ⟨x, y, z, rfl, rfl, rfl, rfl⟩
  | _ :: _ :: _ :: _ :: _ => simp at h

theorem arith_ne_select {op : Op} (hop : op.arith) : op ≠ .select := by
  rintro rfl
  simp [Op.arith] at hop

theorem arith_final {i : Instr} {ρ : Nat → Val} (hw : WellTyped i) (hc : Consistent i ρ)
    (ha : Avoids i ρ) (hop : i.op.arith) {c : Const}
    (h : foldBinaryOp (binaryInt i.op) i = some (some c)) : Final i ρ (emit i.ty c) := by
  obtain ⟨w, s, s1, s2, hww, ht, hts, hu⟩ := arith_elem hop hw.1
  obtain ⟨x, y, hargs, hx, hy⟩ := map_two hts
  simp only [foldBinaryOp, hargs] at h
  split at h
  · rename_i a b hxa hyb
    refine binary_final hw hc hargs (arith_ne_select hop) hxa hyb ?_ h
    intro k ca cb ua ub r d1 d2 t1 t2 hu1 hu2 e1 e2 hr
    rw [hx] at t1 hu1
    rw [hy] at t2 hu2
    obtain ⟨xa, rfl⟩ := typed_int hu1
    obtain ⟨xb, rfl⟩ := typed_int hu2
    rw [ht] at hr ⊢
    obtain ⟨_, g⟩ := binaryInt_good hop hww s d1 d2 (by
        intro ho
        obtain ⟨_, rfl, rfl⟩ := hu ho
        exact ⟨t1, t2⟩) (by
        intro ho
        have hn := ha.narrow (by rcases ho with h | h | h <;> simp [h])
        refine ⟨?_, ?_⟩
        · intro v hv
          exact hn x (by simp [hargs]) v (by rw [hx, ← t1, hv])
        · intro v hv
          exact hn y (by simp [hargs]) v (by rw [hy, ← t2, hv])) (by
        intro ho
        exact ha.smod ho x y hargs k w w xa xb e1 e2)
    obtain ⟨c', h1, h2, h3⟩ := g _ hr
    cases h1
    exact ⟨h2, h3⟩
  · cases h

/-! ## Redundant subtraction and division -/

theorem null_comps {i : Instr} {t : STy} (ht : elem i.ty = t) :
    let c : Const := match i.ty with
      | .scalar t => .scalar (.null t)
      | .vec n t => .nullVec n t
    ConstHasTy c i.ty ∧ (compsOf c).length = dim i.ty ∧ ∀ a ∈ compsOf c, a = .null t := by
  subst ht
  match i.ty with
  | .scalar t => exact ⟨rfl, rfl, by simp [compsOf, elem]⟩
  | .vec n t =>
      refine ⟨⟨rfl, rfl⟩, by simp [compsOf, dim], ?_⟩
      intro a ha
      exact List.eq_of_mem_replicate ha

theorem same_us {i : Instr} {ρ : Nat → Val} (hw : WellTyped i) (hc : Consistent i ρ)
    (hop : i.op ≠ .select) {x y : Operand} (hargs : i.args = [x, y]) {k : Nat} (hk : k < dim i.ty)
    {us : List SVal} (h : (i.args.map fun o => ρ o.id).mapM (comp k) = some us) :
    ∃ u u', us = [u, u'] ∧ (ρ x.id)[k]? = some u ∧ (ρ y.id)[k]? = some u' ∧
      HasSTy u (elem x.ty) ∧ HasSTy u' (elem y.ty) := by
  rw [mapM_comp (fun o ho' => ⟨(hc o ho').1, wellTyped_shape hw hop o ho'⟩) hk, hargs] at h
  have vx := (hc x (by simp [hargs])).1
  have vy := (hc y (by simp [hargs])).1
  simp only [List.map_cons, List.map_nil, List.mapM_cons, List.mapM_nil] at h
  cases hu : (ρ x.id)[k]? with
  | none => rw [hu] at h; cases h
  | some u =>
      cases hu' : (ρ y.id)[k]? with
      | none => rw [hu, hu'] at h; cases h
      | some u' =>
          rw [hu, hu'] at h
          cases h
          exact ⟨u, u', rfl, rfl, rfl, vx.2 _ (List.mem_of_getElem? hu),
            vy.2 _ (List.mem_of_getElem? hu')⟩

theorem redundantSub_final {i : Instr} {ρ : Nat → Val} (hw : WellTyped i) (hc : Consistent i ρ)
    (hop : i.op = .iSub) {c : Const} (h : foldRedundantSub i = some (some c)) :
    Final i ρ (emit i.ty c) := by
  obtain ⟨w, s, s1, s2, hww, ht, hts, -⟩ := arith_elem (by rw [hop]; simp [Op.arith]) hw.1
  obtain ⟨x, y, hargs, hx, hy⟩ := map_two hts
  simp only [foldRedundantSub, hargs] at h
  split at h
  · rename_i hid
    obtain ⟨n1, n2, n3⟩ := null_comps (i := i) ht
    have hcc : c = match i.ty with
      | .scalar t => .scalar (.null t)
      | .vec n t => .nullVec n t := by
        split at h <;> cases h <;> simp_all
    rw [← hcc] at n1 n2 n3
    rw [emit_of_ty n1]
    refine final_of_comps n1 n2 ?_
    intro k a hk
    have := n3 a (List.mem_of_getElem? hk)
    subst this
    have hkd : k < dim i.ty := by
      rw [← n2]; exact (List.getElem?_eq_some_iff.mp hk).1
    refine ⟨.int w 0#w, ⟨rfl, rfl⟩, by rw [ht]; rfl, ?_⟩
    intro us hus r hr
    obtain ⟨u, u', rfl, e1, e2, g1, g2⟩ := same_us hw hc (by rw [hop]; decide) hargs hkd hus
    rw [hid] at e1
    rw [e1] at e2
    cases e2
    rw [hx] at g1
    obtain ⟨z, rfl⟩ := typed_int g1
    rw [ht, hop] at hr
    simp [Spec.scalar, intResult] at hr
    rw [← hr]
  · cases h

theorem uniform_final {i : Instr} {ρ : Nat → Val} {w : Nat} {s : Bool} (hww : Width w)
    (ht : elem i.ty = .int w s) {v : BitVec 64} {c : Const}
    (h : uniformValue i.ty v = some (some c))
    (hv : ∀ k, k < dim i.ty → ∀ us, (i.args.map fun o => ρ o.id).mapM (comp k) = some us →
      ∀ r, Spec.scalar i.op (.int w s) us = some r → r = .int w (v.setWidth w)) :
    Final i ρ (emit i.ty c) := by
  obtain ⟨g, hg, hgt, hgd⟩ := generateInt_spec hww s v
  have key : Outer c i.ty ∧ ∀ a ∈ compsOf c, a = g := by
    match hty : i.ty with
    | .scalar t =>
        rw [hty] at ht h
        cases ht
        simp only [uniformValue, hg, Option.bind_eq_bind, Option.bind_some] at h
        cases h
        exact ⟨trivial, by simp [compsOf]⟩
    | .vec n t =>
        rw [hty] at ht h
        cases ht
        simp only [uniformValue, hg, Option.bind_eq_bind, Option.bind_some, Option.some.injEq] at h
        have := makeVec_some h
        subst this
        exact ⟨⟨rfl, by simp⟩, fun a ha => List.eq_of_mem_replicate ha⟩
  obtain ⟨ho, hall⟩ := key
  have hty : ConstHasTy c i.ty := constHasTy_of_outer ho (by
    intro a ha
    rw [hall a ha, hgt, ht])
  rw [emit_of_ty hty]
  refine final_of_comps hty (outer_length ho) ?_
  intro k a hk
  have := hall a (List.mem_of_getElem? hk)
  subst this
  have hkd : k < dim i.ty := by
    rw [← outer_length ho]; exact (List.getElem?_eq_some_iff.mp hk).1
  refine ⟨_, hgd, by rw [ht]; rfl, ?_⟩
  intro us hus r hr
  rw [ht] at hr
  exact (hv k hkd us hus r hr).symm

theorem one_setWidth {w : Nat} (hw : Width w) :
    (1#64).setWidth w = BitVec.ofInt w 1 ∧ (-1#64).setWidth w = BitVec.ofInt w (-1) := by
  rcases hw with rfl | rfl | rfl | rfl <;> decide

theorem negVal_get {v : Val} {k w : Nat} {x : BitVec w} (h : v[k]? = some (.int w x)) :
    (negVal v)[k]? = some (.int w (BitVec.ofInt w (-x.toInt))) := by
  simp [negVal, h]

theorem toInt_neg_of_ne {w : Nat} (hw : 0 < w) {x : BitVec w} (h : x.toInt ≠ -2 ^ (w - 1)) :
    (BitVec.ofInt w (-x.toInt)).toInt = -x.toInt := by
  rw [BitVec.toInt_ofInt]
  have h1 := BitVec.le_toInt x
  have h2 := BitVec.toInt_lt (x := x)
  have h3 : ((2 ^ w : Nat) : Int) = 2 * 2 ^ (w - 1) := by
    have : w = (w - 1) + 1 := by omega
    rw [this, Nat.pow_succ]
    simp; omega
  apply Int.bmod_eq_of_le <;> rw [h3] <;> generalize (2 : Int) ^ (w - 1) = p at * <;> omega

theorem tdiv_neg_one (a : Int) (h : a ≠ 0) : (-a).tdiv a = -1 ∧ a.tdiv (-a) = -1 ∧ a.tdiv a = 1 := by
  refine ⟨?_, ?_, Int.tdiv_self h⟩
  · rw [Int.neg_tdiv, Int.tdiv_self h]
  · rw [Int.tdiv_neg, Int.tdiv_self h]

theorem redundantDiv_final {i : Instr} {ρ : Nat → Val} (hw : WellTyped i) (hc : Consistent i ρ)
    (ha : Avoids i ρ) (hop : i.op = .uDiv ∨ i.op = .sDiv) {c : Const}
    (h : foldRedundantDiv i = some (some c)) : Final i ρ (emit i.ty c) := by
  have hop' : i.op.arith := by rcases hop with h | h <;> rw [h] <;> simp [Op.arith]
  obtain ⟨w, s, s1, s2, hww, ht, hts, -⟩ := arith_elem hop' hw.1
  obtain ⟨x, y, hargs, hx, hy⟩ := map_two hts
  obtain ⟨hpos, _⟩ := width_cases hww
  obtain ⟨o1, o2⟩ := one_setWidth hww
  simp only [foldRedundantDiv, hargs] at h
  split at h
  · cases h
  split at h
  · rename_i hid
    refine uniform_final hww ht h ?_
    intro k hk us hus r hr
    obtain ⟨u, u', rfl, e1, e2, g1, g2⟩ := same_us hw hc (arith_ne_select hop') hargs hk hus
    rw [hid] at e1
    rw [e1] at e2
    cases e2
    rw [hx] at g1
    obtain ⟨z, rfl⟩ := typed_int g1
    simp only [Spec.scalar, Option.map_eq_some_iff] at hr
    obtain ⟨n, hn, rfl⟩ := hr
    rw [o1]
    rcases hop with ho | ho <;> rw [ho] at hn <;> simp only [intResult] at hn <;> split at hn <;>
      cases hn
    · rename_i hz
      rw [Nat.div_self (by omega)]; rfl
    · rename_i hz
      rw [(tdiv_neg_one _ (by intro h; exact hz (Or.inl h))).2.2]
  split at h
  · cases h
  rename_i hu
  have hs : i.op = .sDiv := by
    rcases hop with h | h
    · exact absurd h hu
    · exact h
  obtain ⟨nm1, nm2⟩ := ha.negmin hs x y hargs
  obtain ⟨vx, _, nx⟩ := hc x (by simp [hargs])
  obtain ⟨vy, _, ny⟩ := hc y (by simp [hargs])
  split at h
  · rename_i hneg
    refine uniform_final hww ht h ?_
    intro k hk us hus r hr
    obtain ⟨u, u', rfl, e1, e2, g1, g2⟩ := same_us hw hc (arith_ne_select hop') hargs hk hus
    rw [hy] at g2
    obtain ⟨z, rfl⟩ := typed_int g2
    rw [nx _ hneg, negVal_get e2] at e1
    cases e1
    have hmin : z.toInt ≠ -2 ^ (w - 1) := by
      intro h'
      exact nm1 hneg ⟨w, z, List.mem_of_getElem? e2, h'⟩
    simp only [Spec.scalar, Option.map_eq_some_iff] at hr
    obtain ⟨n, hn, rfl⟩ := hr
    rw [o2]
    rw [hs] at hn
    simp only [intResult, toInt_neg_of_ne hpos hmin] at hn
    split at hn <;> cases hn
    rename_i hz
    rw [(tdiv_neg_one _ (by intro h; exact hz (Or.inl h))).1]
  split at h
  · rename_i hneg
    refine uniform_final hww ht h ?_
    intro k hk us hus r hr
    obtain ⟨u, u', rfl, e1, e2, g1, g2⟩ := same_us hw hc (arith_ne_select hop') hargs hk hus
    rw [hx] at g1
    obtain ⟨z, rfl⟩ := typed_int g1
    rw [ny _ hneg, negVal_get e1] at e2
    cases e2
    have hmin : z.toInt ≠ -2 ^ (w - 1) := by
      intro h'
      exact nm2 hneg ⟨w, z, List.mem_of_getElem? e1, h'⟩
    simp only [Spec.scalar, Option.map_eq_some_iff] at hr
    obtain ⟨n, hn, rfl⟩ := hr
    rw [o2]
    rw [hs] at hn
    simp only [intResult, toInt_neg_of_ne hpos hmin] at hn
    split at hn <;> cases hn
    rename_i hz
    rw [(tdiv_neg_one _ (by intro h; exact hz (Or.inl (by omega)))).2.1]
  · cases h

/-! ## Unary -/

theorem negate_final {i : Instr} {ρ : Nat → Val} (hw : WellTyped i) (hc : Consistent i ρ)
    (ha : Avoids i ρ) (hop : i.op = .sNegate) {c : Const}
    (h : foldUnaryOp negateInt i = some (some c)) : Final i ρ (emit i.ty c) := by
  have hr := hw.1
  rw [hop] at hr
  obtain ⟨w, s, s1, hww, ht, hts⟩ := hr
  obtain ⟨x, hargs, hx⟩ := map_one hts
  cases hxa : x.const with
  | none => simp [foldUnaryOp, hargs, hxa] at h
  | some a =>
      refine unary_final hw hc hargs (by rw [hop]; decide) hxa ?_ h
      intro k ca ua r d1 t1 hu1 e1 hr
      rw [hx] at t1 hu1
      obtain ⟨xa, rfl⟩ := typed_int hu1
      rw [ht] at hr ⊢
      obtain ⟨_, g⟩ := negateInt_good hww s d1
      obtain ⟨c', h1, h2, h3⟩ := g _ hr
      cases h1
      rw [hop]
      refine ⟨?_, h3⟩
      rcases h2 with h2 | ⟨rfl, t', rfl⟩
      · exact Or.inl h2
      · match hty : i.ty with
        | .scalar t => exact Or.inr ⟨⟨t, rfl⟩, t', rfl⟩
        | .vec n t =>
            have h4 := ha.negvec hop n t hty x (by simp [hargs])
            refine Or.inl ?_
            rw [t1, ← hx, h4, ht]

theorem convert_final {i : Instr} {ρ : Nat → Val} (hw : WellTyped i) (hc : Consistent i ρ)
    (ha : Avoids i ρ) {c : Const} :
    (i.op = .sConvert → foldUnaryOp sConvert i = some (some c) → Final i ρ (emit i.ty c)) ∧
    (i.op = .uConvert → foldUnaryOp uConvert i = some (some c) → Final i ρ (emit i.ty c)) := by
  constructor
  · intro hop h
    have hr := hw.1
    rw [hop] at hr
    obtain ⟨w, s, w1, s1, hww, hww1, -, ht, hts⟩ := hr
    obtain ⟨x, hargs, hx⟩ := map_one hts
    cases hxa : x.const with
    | none => simp [foldUnaryOp, hargs, hxa] at h
    | some a =>
        refine unary_final hw hc hargs (by rw [hop]; decide) hxa ?_ h
        intro k ca ua r d1 t1 hu1 e1 hr
        rw [hx] at t1 hu1
        obtain ⟨xa, rfl⟩ := typed_int hu1
        rw [ht] at hr ⊢
        obtain ⟨c', h1, h2, h3⟩ := sConvert_good hww hww1 s d1 (by
          intro v hv
          exact ha.narrow (by simp [hop]) x (by simp [hargs]) v (by rw [hx, ← t1, hv]))
        rw [h1] at hr
        cases hr
        rw [hop]
        exact ⟨Or.inl h2, h3⟩
  · intro hop h
    have hr := hw.1
    rw [hop] at hr
    obtain ⟨w, w1, s1, hww, hww1, -, ht, hts⟩ := hr
    obtain ⟨x, hargs, hx⟩ := map_one hts
    cases hxa : x.const with
    | none => simp [foldUnaryOp, hargs, hxa] at h
    | some a =>
        refine unary_final hw hc hargs (by rw [hop]; decide) hxa ?_ h
        intro k ca ua r d1 t1 hu1 e1 hr
        rw [hx] at t1 hu1
        obtain ⟨xa, rfl⟩ := typed_int hu1
        rw [ht] at hr ⊢
        obtain ⟨c', h1, h2, h3⟩ := uConvert_good hww hww1 false d1
        rw [h1] at hr
        cases hr
        rw [hop]
        exact ⟨Or.inl h2, h3⟩

/-! ## Select -/

theorem isZero_comps {c : Const} (h : c.isZero = true) : ∀ a ∈ compsOf c, a.isZero = true := by
  match c with
  | .scalar c => simpa [compsOf, Const.isZero] using h
  | .vec t cs => simpa [compsOf, Const.isZero] using h
  | .nullVec n t =>
      intro a ha
      rw [List.eq_of_mem_replicate ha]; rfl

theorem select_shape {i : Instr} (hw : WellTyped i) (hop : i.op = .select) {x y z : Operand}
    (hargs : i.args = [x, y, z]) : y.ty = i.ty ∧ z.ty = i.ty ∧ (elem i.ty).ok ∧
      elem x.ty = .bool ∧ (Shape i.ty x.ty ∨ x.ty = .scalar .bool) ∧ Shape i.ty i.ty := by
  have hr := hw.1
  have hs := hw.2
  rw [hop, hargs] at hr
  obtain ⟨h1, h2⟩ := hr
  simp only [List.map_cons, List.map_nil, List.cons.injEq, and_true] at h2
  obtain ⟨hx, hy, hz⟩ := h2
  have hok : (elem i.ty).ok := by
    cases ht : elem i.ty with
    | bool => trivial
    | int w s => exact h1 w s ht
  refine (fun p : _ ∧ _ ∧ _ ∧ _ => ⟨p.1, p.2.1, hok, hx, p.2.2⟩) ?_
  rw [hargs] at hs
  match hty : i.ty with
  | .scalar t =>
      simp only [shapeRule, hty] at hs
      obtain ⟨tx, ex⟩ := hs x.ty (by simp)
      obtain ⟨ty, ey⟩ := hs y.ty (by simp)
      obtain ⟨tz, ez⟩ := hs z.ty (by simp)
      rw [ey, hty] at hy
      rw [ez, hty] at hz
      simp only [elem] at hy hz
      refine ⟨by rw [ey, hy], by rw [ez, hz], Or.inl ?_, trivial⟩
      rw [ex]; trivial
  | .vec n t =>
      simp only [shapeRule, hty] at hs
      obtain ⟨hn, hx', hyz⟩ := hs
      obtain ⟨ty, ey⟩ := hyz y.ty (by simp)
      obtain ⟨tz, ez⟩ := hyz z.ty (by simp)
      rw [ey, hty] at hy
      rw [ez, hty] at hz
      simp only [elem] at hy hz
      refine ⟨by rw [ey, hy], by rw [ez, hz], ?_, rfl, hn⟩
      rcases hx' x.ty (by simp) with ⟨tx, ex⟩ | ⟨_, ex⟩
      · rw [ex]; exact Or.inl ⟨rfl, hn⟩
      · exact Or.inr ex

theorem select_final {i : Instr} {ρ : Nat → Val} (hw : WellTyped i) (hc : Consistent i ρ)
    (hop : i.op = .select) {c : Const} (h : foldInvariantSelect i = some (some c)) :
    Final i ρ (emit i.ty c) := by
  have hr := hw.1
  rw [hop] at hr
  obtain ⟨x, y, z, hargs, -, -, -⟩ := map_three hr.2
  obtain ⟨ey, ez, hok, ex, sx, sh⟩ := select_shape hw hop hargs
  obtain ⟨vx, _, _⟩ := hc x (by simp [hargs])
  obtain ⟨vy, cy, _⟩ := hc y (by simp [hargs])
  obtain ⟨vz, cz, _⟩ := hc z (by simp [hargs])
  rw [ey] at vy cy
  rw [ez] at vz cz
  simp only [foldInvariantSelect, hargs] at h
  split at h
  · rename_i b d hyb hzd
    obtain ⟨tb, db⟩ := cy b hyb
    obtain ⟨td, dd⟩ := cz d hzd
    have ly : (ρ y.id).length = dim i.ty := vy.1
    have lz : (ρ z.id).length = dim i.ty := vz.1
    obtain ⟨lb, kb⟩ := compsOf_ok tb db
    obtain ⟨ld, kd⟩ := compsOf_ok td dd
    have same : c = b ∧ ∀ (k : Nat) u u', (ρ y.id)[k]? = some u → (ρ z.id)[k]? = some u' → u = u' := by
      have hkb : ∀ (k : Nat) u, (ρ y.id)[k]? = some u → ∃ a, (compsOf b)[k]? = some a ∧ SDenotes a u := by
        intro k u hu
        have hlt := (List.getElem?_eq_some_iff.mp hu).1
        have e : (compsOf b)[k]? = some _ := List.getElem?_eq_getElem (by omega)
        exact ⟨_, e, (kb k _ _ e hu).1⟩
      have hkd : ∀ (k : Nat) u, (ρ z.id)[k]? = some u → ∃ a, (compsOf d)[k]? = some a ∧ SDenotes a u := by
        intro k u hu
        have hlt := (List.getElem?_eq_some_iff.mp hu).1
        have e : (compsOf d)[k]? = some _ := List.getElem?_eq_getElem (by omega)
        exact ⟨_, e, (kd k _ _ e hu).1⟩
      split at h
      · rename_i hbd
        cases h
        subst hbd
        refine ⟨rfl, ?_⟩
        intro k u u' hu hu'
        obtain ⟨a, e1, f1⟩ := hkb k u hu
        obtain ⟨a', e2, f2⟩ := hkd k u' hu'
        rw [e1] at e2
        cases e2
        exact sdenotes_inj hok f1 f2 (vy.2 _ (List.mem_of_getElem? hu))
          (vz.2 _ (List.mem_of_getElem? hu'))
      · split at h
        · rename_i hz
          cases h
          simp only [Bool.and_eq_true] at hz
          refine ⟨rfl, ?_⟩
          intro k u u' hu hu'
          obtain ⟨a, e1, f1⟩ := hkb k u hu
          obtain ⟨a', e2, f2⟩ := hkd k u' hu'
          rw [isZero_val hok f1 (vy.2 _ (List.mem_of_getElem? hu))
              (isZero_comps hz.1 a (List.mem_of_getElem? e1)),
            isZero_val hok f2 (vz.2 _ (List.mem_of_getElem? hu'))
              (isZero_comps hz.2 a' (List.mem_of_getElem? e2))]
        · cases h
    obtain ⟨rfl, same⟩ := same
    rw [emit_of_ty tb]
    refine final_of_comps tb (by omega) ?_
    intro k a hk
    have hlt := (List.getElem?_eq_some_iff.mp hk).1
    have e1 : (ρ y.id)[k]? = some _ := List.getElem?_eq_getElem (by omega)
    have e2 : (ρ z.id)[k]? = some _ := List.getElem?_eq_getElem (by omega)
    refine ⟨_, (kb k a _ hk e1).1, vy.2 _ (List.mem_of_getElem? e1), ?_⟩
    intro us hus r hr
    have hsame := same k _ _ e1 e2
    rw [hargs] at hus
    simp only [List.map_cons, List.map_nil, List.mapM_cons, List.mapM_nil,
      comp_shape vy sh (show k < dim i.ty by omega), comp_shape vz sh (show k < dim i.ty by omega),
      e1, e2] at hus
    cases hq : comp k (ρ x.id) with
    | none => rw [hq] at hus; cases hus
    | some q =>
        rw [hq] at hus
        cases hus
        rw [hop, ← hsame] at hr
        generalize (ρ y.id)[k] = u at *
        cases q <;> cases ht : elem i.ty <;> rw [ht] at hr <;> cases u <;>
          simp [Spec.scalar, intTernary] at hr <;> exact hr
  · cases h

end Verif.Fold
