import Verif.Fold.Instr

set_option linter.unusedSimpArgs false
set_option linter.unusedVariables false

namespace Verif.Fold

open Spec

def Op.minmax (op : Op) : Prop := op = .sMin ∨ op = .uMin ∨ op = .sMax ∨ op = .uMax

theorem minmax_types {i : Instr} {ρ : Nat → Val} (ha : Avoids i ρ)
    (hop : i.op.minmax ∨ i.op = .sClamp ∨ i.op = .uClamp) :
    ∃ w s, elem i.ty = .int w s ∧ (∀ o ∈ i.args, elem o.ty = .int w s) ∧
      (s = true ↔ (i.op = .sMin ∨ i.op = .sMax ∨ i.op = .sClamp)) := by
  by_cases h : i.op = .sMin ∨ i.op = .sMax ∨ i.op = .sClamp
  · obtain ⟨w, h1, h2⟩ := ha.minmaxS h
    exact ⟨w, true, h1, h2, by simpa using h⟩
  · have : i.op = .uMin ∨ i.op = .uMax ∨ i.op = .uClamp := by
      rcases hop with (h' | h' | h' | h') | h' | h' <;> simp [h'] at h ⊢
    obtain ⟨w, h1, h2⟩ := ha.minmaxU this
    exact ⟨w, false, h1, h2, by simpa using h⟩

theorem sel_ty {p : Prop} [Decidable p] {a b : SConst} {t : STy} (ha : a.ty = t) (hb : b.ty = t) :
    (if p then a else b).ty = t := by split <;> assumption

theorem min_good {op : Op} {w : Nat} {s : Bool} (hop : op = if s then .sMin else .uMin)
    {a b : SConst} {x y : BitVec w} (ha : SDenotes a (.int w x)) (hb : SDenotes b (.int w y)) :
    Good op (.int w s) [.int w x, .int w y] (if key s x < key s y then a else b) := by
  subst hop
  have hm := intResult_min s x y
  refine good_int (z := if key s x < key s y then x else y) ?_ ?_
  · split <;> assumption
  · intro r hr
    simp only [Spec.scalar, hm, Option.map_some, Option.some.injEq] at hr
    rw [← hr]
    congr 1
    by_cases h : key s x < key s y
    · rw [if_pos h, Int.min_eq_left (by omega), ofInt_key]
    · rw [if_neg h, Int.min_eq_right (by omega), ofInt_key]

theorem max_good {op : Op} {w : Nat} {s : Bool} (hop : op = if s then .sMax else .uMax)
    {a b : SConst} {x y : BitVec w} (ha : SDenotes a (.int w x)) (hb : SDenotes b (.int w y)) :
    Good op (.int w s) [.int w x, .int w y] (if key s y < key s x then a else b) := by
  subst hop
  have hm := intResult_max s x y
  refine good_int (z := if key s y < key s x then x else y) ?_ ?_
  · split <;> assumption
  · intro r hr
    simp only [Spec.scalar, hm, Option.map_some, Option.some.injEq] at hr
    rw [← hr]
    congr 1
    by_cases h : key s y < key s x
    · rw [if_pos h, Int.max_eq_left (by omega), ofInt_key]
    · rw [if_neg h, Int.max_eq_right (by omega), ofInt_key]

theorem minmax_elem {op : Op} (hop : op.minmax) {t : STy} {ts : List STy}
    (h : elemRule op t ts) :
    ∃ w s s1 s2, Width w ∧ t = .int w s ∧ ts = [.int w s1, .int w s2] := by
  rcases hop with rfl | rfl | rfl | rfl <;> exact h

theorem minmax_final {i : Instr} {ρ : Nat → Val} (hw : WellTyped i) (hc : Consistent i ρ)
    (ha : Avoids i ρ) (hop : i.op.minmax)
    {c : Const}
    (h : ((i.op = .sMin ∨ i.op = .uMin) ∧ foldFPBinaryOp foldMin i = some (some c)) ∨
      ((i.op = .sMax ∨ i.op = .uMax) ∧ foldFPBinaryOp foldMax i = some (some c))) :
    Final i ρ (emit i.ty c) := by
  obtain ⟨w, s, ht, hts, hs⟩ := minmax_types ha (Or.inl hop)
  obtain ⟨w', s', s1, s2, hww, ht', hts'⟩ := minmax_elem hop hw.1
  rw [ht] at ht'
  cases ht'
  obtain ⟨x, y, hargs, -, -⟩ := map_two hts'
  have hx := hts x (by simp [hargs])
  have hy := hts y (by simp [hargs])
  have hns : i.op ≠ .select := by
    rcases hop with h | h | h | h <;> rw [h] <;> decide
  rcases h with ⟨ho, h⟩ | ⟨ho, h⟩
  · simp only [foldFPBinaryOp, foldBinaryOp, hargs] at h
    split at h
    · cases h
    split at h
    · rename_i a b hxa hyb
      refine binary_final hw hc hargs hns hxa hyb ?_ h
      intro k ca cb ua ub r d1 d2 t1 t2 hu1 hu2 e1 e2 hr
      rw [hx] at t1 hu1
      rw [hy] at t2 hu2
      obtain ⟨xa, rfl⟩ := typed_int hu1
      obtain ⟨xb, rfl⟩ := typed_int hu2
      rw [ht, foldMin_spec hww d1 d2 t1 t2] at hr
      cases hr
      rw [ht]
      refine ⟨sel_ty t1 t2, min_good ?_ d1 d2⟩
      rcases ho with ho | ho <;> rw [ho] at hs ⊢ <;> simp at hs <;> simp [hs]
    · cases h
  · simp only [foldFPBinaryOp, foldBinaryOp, hargs] at h
    split at h
    · cases h
    split at h
    · rename_i a b hxa hyb
      refine binary_final hw hc hargs hns hxa hyb ?_ h
      intro k ca cb ua ub r d1 d2 t1 t2 hu1 hu2 e1 e2 hr
      rw [hx] at t1 hu1
      rw [hy] at t2 hu2
      obtain ⟨xa, rfl⟩ := typed_int hu1
      obtain ⟨xb, rfl⟩ := typed_int hu2
      rw [ht, foldMax_spec hww d1 d2 t1 t2] at hr
      cases hr
      rw [ht]
      refine ⟨sel_ty t1 t2, max_good ?_ d1 d2⟩
      rcases ho with ho | ho <;> rw [ho] at hs ⊢ <;> simp at hs <;> simp [hs]
    · cases h

/-! ## Clamp -/

/-- Component `k` of a clamp is right. -/
def ClampOk (w : Nat) (s : Bool) (x lo hi z : BitVec w) : Prop :=
  key s lo ≤ key s hi → key s z = min (max (key s x) (key s lo)) (key s hi)

theorem clamp_final {i : Instr} {ρ : Nat → Val} (hw : WellTyped i) (hc : Consistent i ρ)
    (hop : i.op = .sClamp ∨ i.op = .uClamp) {x y z : Operand} (hargs : i.args = [x, y, z])
    {w : Nat} {s : Bool} (ht : elem i.ty = .int w s)
    (hts : ∀ o ∈ i.args, elem o.ty = .int w s) (hs : s = true ↔ i.op = .sClamp)
    {c : Const} (hty : ConstHasTy c i.ty) (hlen : (compsOf c).length = dim i.ty)
    (h : ∀ (k : Nat) r xa xb xc, (compsOf c)[k]? = some r → (ρ x.id)[k]? = some (.int w xa) →
      (ρ y.id)[k]? = some (.int w xb) → (ρ z.id)[k]? = some (.int w xc) →
      ∃ q, SDenotes r (.int w q) ∧ ClampOk w s xa xb xc q) : Final i ρ (emit i.ty c) := by
  have hns : i.op ≠ .select := by rcases hop with h | h <;> rw [h] <;> decide
  rw [emit_of_ty hty]
  refine final_of_comps hty hlen ?_
  intro k r hk
  have hkd : k < dim i.ty := by rw [← hlen]; exact (List.getElem?_eq_some_iff.mp hk).1
  have get : ∀ o ∈ i.args, ∃ xo, (ρ o.id)[k]? = some (.int w xo) := by
    intro o ho
    have hv := (hc o ho).1
    have hlt : k < (ρ o.id).length := by rw [hv.1, shape_dim (wellTyped_shape hw hns o ho)]; exact hkd
    have e := List.getElem?_eq_getElem hlt
    have := hv.2 _ (List.getElem_mem hlt)
    rw [hts o ho] at this
    obtain ⟨q, hq⟩ := typed_int this
    exact ⟨q, by rw [e, hq]⟩
  obtain ⟨xa, ea⟩ := get x (by simp [hargs])
  obtain ⟨xb, eb⟩ := get y (by simp [hargs])
  obtain ⟨xc, ec⟩ := get z (by simp [hargs])
  obtain ⟨q, hq, hok⟩ := h k r xa xb xc hk ea eb ec
  refine ⟨_, hq, by rw [ht]; rfl, ?_⟩
  intro us hus r' hr
  rw [mapM_comp (fun o ho' => ⟨(hc o ho').1, wellTyped_shape hw hns o ho'⟩) hkd, hargs] at hus
  simp only [List.map_cons, List.map_nil, List.mapM_cons, List.mapM_nil, ea, eb, ec] at hus
  cases hus
  have hop' : i.op = if s then .sClamp else .uClamp := by
    rcases hop with ho | ho <;> rw [ho] at hs ⊢ <;> simp at hs <;> simp [hs]
  rw [ht] at hr
  simp only [Spec.scalar, hop', intTernary_clamp] at hr
  split at hr
  · cases hr
  · rename_i hle
    simp only [Option.map_some, Option.some.injEq] at hr
    rw [← hr, ← hok (by omega), ofInt_key]

theorem clamp_args {i : Instr} (hw : WellTyped i) (hop : i.op = .sClamp ∨ i.op = .uClamp) :
    ∃ w s x y z, Width w ∧ elem i.ty = .int w s ∧ i.args = [x, y, z] := by
  have h := hw.1
  rcases hop with ho | ho <;> rw [ho] at h <;>
  · obtain ⟨w, s, s1, s2, s3, h1, h2, h3⟩ := h
    obtain ⟨x, y, z, hargs, -⟩ := map_three h3
    exact ⟨w, s, x, y, z, h1, h2, hargs⟩

theorem denotes_int {c : SConst} {u : SVal} {w : Nat} {s : Bool} (h : SDenotes c u)
    (ht : c.ty = .int w s) : ∃ x, u = .int w x := by
  match c, u with
  | .int w' s' ws, .int w'' x => cases ht; cases h.1; exact ⟨x, rfl⟩
  | .null (.int w' s'), .int w'' x => cases ht; cases h.1; exact ⟨x, rfl⟩
  | .null .bool, _ => cases ht
  | .bool _, _ => cases ht
  | .int .., .bool _ => cases h
  | .null (.int ..), .bool _ => cases h

/-- `FoldMax`/`FoldMin` on whole constants. -/
theorem applyMax_spec {ty ta tb : Ty} {a b c : Const} {va vb : Val} {w : Nat} {s : Bool}
    (hww : Width w) (ha : ConstHasTy a ta) (hb : ConstHasTy b tb) (hsa : Shape ty ta)
    (hsb : Shape ty tb) (hta : elem ta = .int w s) (htb : elem tb = .int w s)
    (ht : elem ty = .int w s) (da : CompsOk (compsOf a) (.int w s) va)
    (db : CompsOk (compsOf b) (.int w s) vb)
    {rule : STy → SConst → SConst → Option (Option SConst)} {pick : BitVec w → BitVec w → Bool}
    (hrule : ∀ {a b : SConst} {x y : BitVec w}, SDenotes a (.int w x) → SDenotes b (.int w y) →
      a.ty = .int w s → b.ty = .int w s →
      rule (.int w s) a b = some (some (if pick x y then a else b)))
    (h : applyBinary rule ty a b = some (some c)) :
    Outer c ty ∧ ConstHasTy c ty ∧ ∀ (k : Nat) r x y, (compsOf c)[k]? = some r →
      va[k]? = some (.int w x) → vb[k]? = some (.int w y) →
      ∃ p q, (compsOf a)[k]? = some p ∧ (compsOf b)[k]? = some q ∧ SDenotes p (.int w x) ∧
        SDenotes q (.int w y) ∧ r = if pick x y then p else q := by
  obtain ⟨ho, hk⟩ := applyBinary_spec ha hb hsa hsb h
  have hlen := outer_length ho
  have la : (compsOf a).length = dim ty := by
    cases ta with
    | scalar t =>
        obtain ⟨a', rfl, _⟩ := constHasTy_scalar ha
        rw [← shape_dim hsa]; rfl
    | vec n t => rw [(compsOf_vec ha).2, ← shape_dim hsa]; rfl
  have lb : (compsOf b).length = dim ty := by
    cases tb with
    | scalar t =>
        obtain ⟨b', rfl, _⟩ := constHasTy_scalar hb
        rw [← shape_dim hsb]; rfl
    | vec n t => rw [(compsOf_vec hb).2, ← shape_dim hsb]; rfl
  have main : ∀ (k : Nat) r x y, (compsOf c)[k]? = some r →
      va[k]? = some (.int w x) → vb[k]? = some (.int w y) →
      ∃ p q, (compsOf a)[k]? = some p ∧ (compsOf b)[k]? = some q ∧ SDenotes p (.int w x) ∧
        SDenotes q (.int w y) ∧ r = (if pick x y then p else q) ∧ r.ty = .int w s := by
    intro k r x y hr hx hy
    have hlt := (List.getElem?_eq_some_iff.mp hr).1
    have e1 : (compsOf a)[k]? = some _ := List.getElem?_eq_getElem (by omega)
    have e2 : (compsOf b)[k]? = some _ := List.getElem?_eq_getElem (by omega)
    obtain ⟨d1, t1⟩ := da.2 k _ _ e1 hx
    obtain ⟨d2, t2⟩ := db.2 k _ _ e2 hy
    have := hk k _ _ _ e1 e2 hr
    rw [ht, hrule d1 d2 t1 t2] at this
    simp only [Option.some.injEq] at this
    refine ⟨_, _, e1, e2, d1, d2, this.symm, ?_⟩
    rw [← this]
    split <;> assumption
  refine ⟨ho, constHasTy_of_outer ho ?_, ?_⟩
  · intro r hr
    obtain ⟨k, hk'⟩ := List.mem_iff_getElem?.mp hr
    have hlt := (List.getElem?_eq_some_iff.mp hk').1
    have e1 : va[k]? = some _ := List.getElem?_eq_getElem (by have := da.1; omega)
    have e2 : vb[k]? = some _ := List.getElem?_eq_getElem (by have := db.1; omega)
    have f1 : (compsOf a)[k]? = some _ := List.getElem?_eq_getElem (by omega)
    have f2 : (compsOf b)[k]? = some _ := List.getElem?_eq_getElem (by omega)
    obtain ⟨d1, t1⟩ := da.2 k _ _ f1 e1
    obtain ⟨d2, t2⟩ := db.2 k _ _ f2 e2
    obtain ⟨x, hx⟩ := denotes_int d1 t1
    obtain ⟨y, hy⟩ := denotes_int d2 t2
    rw [hx] at e1
    rw [hy] at e2
    obtain ⟨_, _, _, _, _, _, _, h8⟩ := main k r x y hk' e1 e2
    rw [h8, ht]
  · intro k r x y hr hx hy
    obtain ⟨p, q, h1, h2, h3, h4, h5, _⟩ := main k r x y hr hx hy
    exact ⟨p, q, h1, h2, h3, h4, h5⟩

theorem max_pick {w : Nat} {s : Bool} (hww : Width w) {a b : SConst} {x y : BitVec w}
    (ha : SDenotes a (.int w x)) (hb : SDenotes b (.int w y)) (hta : a.ty = .int w s)
    (htb : b.ty = .int w s) :
    foldMax (.int w s) a b =
      some (some (if decide (key s y < key s x) = true then a else b)) := by
  rw [foldMax_spec hww ha hb hta htb]
  simp

theorem min_pick {w : Nat} {s : Bool} (hww : Width w) {a b : SConst} {x y : BitVec w}
    (ha : SDenotes a (.int w x)) (hb : SDenotes b (.int w y)) (hta : a.ty = .int w s)
    (htb : b.ty = .int w s) :
    foldMin (.int w s) a b =
      some (some (if decide (key s x < key s y) = true then a else b)) := by
  rw [foldMin_spec hww ha hb hta htb]
  simp

theorem key_inj {w : Nat} {s : Bool} {c : SConst} {x y : BitVec w} (hww : Width w)
    (h : SDenotes c (.int w x)) (h' : SDenotes c (.int w y)) : x = y := by
  have := sdenotes_inj (t := .int w s) hww h h' rfl rfl
  cases this; rfl

theorem clampRules_final {i : Instr} {ρ : Nat → Val} (hw : WellTyped i) (hc : Consistent i ρ)
    (ha : Avoids i ρ) (hop : i.op = .sClamp ∨ i.op = .uClamp) {c : Const}
    (h : foldClamp1 i = some (some c) ∨ foldClamp2 i = some (some c) ∨
      foldClamp3 i = some (some c)) : Final i ρ (emit i.ty c) := by
  have hns : i.op ≠ .select := by rcases hop with h | h <;> rw [h] <;> decide
  obtain ⟨w, s, ht, hts, hs⟩ := minmax_types ha (Or.inr hop)
  have hs' : s = true ↔ i.op = .sClamp := by
    rw [hs]
    rcases hop with ho | ho <;> simp [ho]
  obtain ⟨w', s', x, y, z, hww, ht', hargs⟩ := clamp_args hw hop
  rw [ht] at ht'
  cases ht'
  have ix : x ∈ i.args := by simp [hargs]
  have iy : y ∈ i.args := by simp [hargs]
  have iz : z ∈ i.args := by simp [hargs]
  have hx := hts x ix
  have hy := hts y iy
  have hz := hts z iz
  have sx := wellTyped_shape hw hns x ix
  have sy := wellTyped_shape hw hns y iy
  have sz := wellTyped_shape hw hns z iz
  obtain ⟨vx, cx, _⟩ := hc x ix
  obtain ⟨vy, cy, _⟩ := hc y iy
  obtain ⟨vz, cz, _⟩ := hc z iz
  rcases h with h | h | h
  · simp only [foldClamp1, hargs] at h
    split at h
    · rename_i a b d hxa hyb hzd
      obtain ⟨ta, da⟩ := cx a hxa
      obtain ⟨tb, db⟩ := cy b hyb
      obtain ⟨td, dd⟩ := cz d hzd
      have oa := compsOf_ok ta da
      have ob := compsOf_ok tb db
      have od := compsOf_ok td dd
      rw [hx] at oa
      rw [hy] at ob
      rw [hz] at od
      split at h
      · rename_i t htt
        obtain ⟨m1, m2, m3⟩ := applyMax_spec hww ta tb sx sy hx hy ht oa ob
          (pick := fun x y => decide (key s y < key s x)) (max_pick hww) htt
        have sii : Shape i.ty i.ty := by
          revert sx
          cases i.ty <;> cases x.ty <;> simp [Shape]
        -- values of the intermediate constant
        have hlt := outer_length m1
        have ot : CompsOk (compsOf t) (.int w s)
            ((List.range (dim i.ty)).map fun k =>
              match (ρ x.id)[k]?, (ρ y.id)[k]? with
              | some (SVal.int w1 p), some (SVal.int w2 q) =>
                  if key s (q.setWidth w) < key s (p.setWidth w) then
                    SVal.int w (p.setWidth w) else SVal.int w (q.setWidth w)
              | _, _ => SVal.bool false) := by
          refine ⟨by simp [hlt], ?_⟩
          intro k r u hr hu
          have hkd : k < dim i.ty := by rw [← hlt]; exact (List.getElem?_eq_some_iff.mp hr).1
          have get : ∀ o ∈ i.args, ∃ xo, (ρ o.id)[k]? = some (.int w xo) := by
            intro o ho
            have hv := (hc o ho).1
            have hlt : k < (ρ o.id).length := by
              rw [hv.1, shape_dim (wellTyped_shape hw hns o ho)]; exact hkd
            have e := List.getElem?_eq_getElem hlt
            have := hv.2 _ (List.getElem_mem hlt)
            rw [hts o ho] at this
            obtain ⟨q, hq⟩ := typed_int this
            exact ⟨q, by rw [e, hq]⟩
          obtain ⟨xa, ea⟩ := get x ix
          obtain ⟨xb, eb⟩ := get y iy
          obtain ⟨p, q, g1, g2, g3, g4, g5⟩ := m3 k r xa xb hr ea eb
          simp only [List.getElem?_map, List.getElem?_range hkd, Option.map_some, ea, eb,
            BitVec.setWidth_eq, Option.some.injEq] at hu
          subst hu
          have hrt : r.ty = .int w s := by
            match ho : i.ty with
            | .scalar t' =>
                rw [ho] at m2 ht
                obtain ⟨r', rfl, h'⟩ := constHasTy_scalar m2
                have := List.mem_of_getElem? hr
                simp [compsOf] at this
                subst this
                rw [h']; exact ht
            | .vec n t' =>
                rw [ho] at m1 m2 ht
                match t, m1 with
                | .vec t'' cs, _ =>
                    rw [m2.2.2 r (List.mem_of_getElem? hr)]; exact ht
          refine ⟨?_, hrt⟩
          rw [g5]
          by_cases hlt' : key s xb < key s xa
          · simp [hlt']; exact g3
          · simp [hlt']; exact g4
        obtain ⟨n1, n2, n3⟩ := applyMax_spec hww m2 td sii sz ht hz ht ot od
          (pick := fun x y => decide (key s x < key s y)) (min_pick hww) h
        refine clamp_final hw hc hop hargs ht hts hs' n2 (outer_length n1) ?_
        intro k r xa xb xc hr ea eb ec
        have hkd : k < dim i.ty := by
          rw [← outer_length n1]; exact (List.getElem?_eq_some_iff.mp hr).1
        obtain ⟨p, q, g1, g2, g3, g4, g5⟩ := n3 k r (if key s xb < key s xa then xa else xb) xc hr
          (by
            simp only [List.getElem?_map, List.getElem?_range hkd, Option.map_some, ea, eb,
              BitVec.setWidth_eq]
            split <;> rfl) ec
        refine ⟨if key s (if key s xb < key s xa then xa else xb) < key s xc then
          (if key s xb < key s xa then xa else xb) else xc, ?_, ?_⟩
        · rw [g5]
          by_cases hlt' : key s (if key s xb < key s xa then xa else xb) < key s xc
          · simp only [hlt', decide_true, if_true]; exact g3
          · simp only [hlt', decide_false, if_false, Bool.false_eq_true]; exact g4
        · intro hle
          by_cases h1 : key s xb < key s xa
          · simp only [h1, if_true]
            by_cases h2 : key s xa < key s xc
            · simp only [h2, if_true]; omega
            · simp only [h2, if_false]; omega
          · simp only [h1, if_false]
            by_cases h2 : key s xb < key s xc
            · simp only [h2, if_true]; omega
            · simp only [h2, if_false]; omega
      · rename_i hne
        exact absurd h (hne c)
    · cases h
  · simp only [foldClamp2, hargs] at h
    split at h
    · rename_i a b hxa hyb
      obtain ⟨ta, da⟩ := cx a hxa
      obtain ⟨tb, db⟩ := cy b hyb
      have oa := compsOf_ok ta da
      have ob := compsOf_ok tb db
      rw [hx] at oa
      rw [hy] at ob
      simp only [Option.bind_eq_bind] at h
      cases hm : applyBinary foldMax i.ty a b with
      | none => rw [hm] at h; cases h
      | some t =>
          rw [hm, Option.bind_some] at h
          split at h
          · rename_i htb
            cases h
            rw [htb] at hm
            obtain ⟨m1, m2, m3⟩ := applyMax_spec hww ta tb sx sy hx hy ht oa ob
              (pick := fun x y => decide (key s y < key s x)) (max_pick hww) hm
            refine clamp_final hw hc hop hargs ht hts hs' m2 (outer_length m1) ?_
            intro k r xa xb xc hr ea eb ec
            obtain ⟨p, q, g1, g2, g3, g4, g5⟩ := m3 k r xa xb hr ea eb
            rw [hr] at g2
            cases g2
            refine ⟨xb, g4, ?_⟩
            intro hle
            by_cases h1 : key s xb < key s xa
            · simp only [h1, decide_true, if_true] at g5
              rw [← g5] at g3
              have := key_inj (s := s) hww g3 g4
              subst this
              omega
            · omega
          · cases h
    · cases h
  · simp only [foldClamp3, hargs] at h
    split at h
    · rename_i a b hxa hyb
      obtain ⟨ta, da⟩ := cx a hxa
      obtain ⟨tb, db⟩ := cz b hyb
      have oa := compsOf_ok ta da
      have ob := compsOf_ok tb db
      rw [hx] at oa
      rw [hz] at ob
      simp only [Option.bind_eq_bind] at h
      cases hm : applyBinary foldMin i.ty a b with
      | none => rw [hm] at h; cases h
      | some t =>
          rw [hm, Option.bind_some] at h
          split at h
          · rename_i htb
            cases h
            rw [htb] at hm
            obtain ⟨m1, m2, m3⟩ := applyMax_spec hww ta tb sx sz hx hz ht oa ob
              (pick := fun x y => decide (key s x < key s y)) (min_pick hww) hm
            refine clamp_final hw hc hop hargs ht hts hs' m2 (outer_length m1) ?_
            intro k r xa xb xc hr ea eb ec
            obtain ⟨p, q, g1, g2, g3, g4, g5⟩ := m3 k r xa xc hr ea ec
            rw [hr] at g2
            cases g2
            refine ⟨xc, g4, ?_⟩
            intro hle
            by_cases h1 : key s xa < key s xc
            · simp only [h1, decide_true, if_true] at g5
              rw [← g5] at g3
              have := key_inj (s := s) hww g3 g4
              subst this
              omega
            · omega
          · cases h
    · cases h

end Verif.Fold
