import Verif.Fold.MinMax

set_option linter.unusedSimpArgs false
set_option linter.unusedVariables false

namespace Verif.Fold

open Spec

/-! ## Scalar rules -/

theorem signExtended_min {c : SConst} {w : Nat} {x : BitVec w} {z : BitVec 64} (hw : Width w)
    (h : SDenotes c (.int w x)) (hz : signExtended c = some z) (hm : z = int64Min) :
    w = 64 ∧ x.toInt = -2 ^ 63 := by
  obtain ⟨z', h1, h2, -⟩ := signExtended_spec hw h
  rw [hz] at h1
  cases h1
  obtain ⟨hpos, hle | rfl⟩ := width_cases hw
  · exfalso
    match c with
    | .bool _ => cases h
    | .null .bool => cases h
    | .null (.int w' s) =>
        simp only [signExtended] at hz
        split at hz <;> cases hz
        revert hm; decide
    | .int w' s ws =>
        obtain ⟨rfl, -⟩ := h
        simp only [signExtended, hle, if_true] at hz
        split at hz
        · rename_i y
          cases hz
          have h3 := congrArg BitVec.toInt hm
          rw [toInt_signExtend_ge _ (by omega)] at h3
          have h4 := BitVec.le_toInt y
          have h5 : int64Min.toInt = -9223372036854775808 := by decide
          omega
        · cases hz
  · refine ⟨rfl, ?_⟩
    rw [← h2, BitVec.setWidth_eq]
    exact (toInt_eq_min64 z).mp hm

theorem signExtended_neg1 {c : SConst} {x : BitVec 64} {z : BitVec 64}
    (h : SDenotes c (.int 64 x)) (hz : signExtended c = some z) (hm : z = -1#64) :
    x.toInt = -1 := by
  obtain ⟨z', h1, h2, _⟩ := signExtended_spec (by simp [Width]) h
  rw [hz] at h1
  cases h1
  rw [← h2, BitVec.setWidth_eq]
  exact (toInt_eq_neg1 z).mp hm

/-- Reading and computing faults only on the overflowing 64-bit quotient. -/
theorem binaryInt_safe {op : Op} (hop : op.arith) {w : Nat} (hw : Width w) (s : Bool)
    {a b : SConst} {x y : BitVec w} (ha : SDenotes a (.int w x)) (hb : SDenotes b (.int w y))
    (hs : ¬ ((op = .sDiv ∨ op = .sRem ∨ op = .sMod) ∧ w = 64 ∧ x.toInt = -2 ^ 63 ∧
      y.toInt = -1)) :
    ∃ c, binaryInt op (.int w s) a b = some (some c) ∧ c.ty = .int w s := by
  have rd : ∀ {c : SConst} {z : BitVec w} (sg : Bool), SDenotes c (.int w z) →
      ∃ q, readInt sg c = some q := by
    intro c z sg hc
    cases sg
    · obtain ⟨q, h, _⟩ := zeroExtended_spec hw hc; exact ⟨q, h⟩
    · obtain ⟨q, h, _⟩ := signExtended_spec hw hc; exact ⟨q, h⟩
  obtain ⟨za, h1⟩ := rd op.signedRule ha
  obtain ⟨zb, h2⟩ := rd op.signedRule hb
  have h3 : ∃ z, intOp op za zb = some z := by
    have host : (op = .sDiv ∨ op = .sRem ∨ op = .sMod) → ¬ (za = int64Min ∧ zb = -1#64) := by
      rintro ho ⟨e1, e2⟩
      have hsg : op.signedRule = true := by rcases ho with h | h | h <;> rw [h] <;> rfl
      rw [hsg] at h1 h2
      obtain ⟨rfl, m1⟩ := signExtended_min hw ha h1 e1
      exact hs ⟨ho, rfl, m1, signExtended_neg1 hb h2 e2⟩
    rcases hop with rfl | rfl | rfl | rfl | rfl | rfl | rfl | rfl
    · exact ⟨_, rfl⟩
    · exact ⟨_, rfl⟩
    · exact ⟨_, rfl⟩
    · simp only [intOp]; split <;> exact ⟨_, rfl⟩
    · simp only [intOp]; split <;> exact ⟨_, rfl⟩
    · have := host (by simp)
      by_cases h : zb = 0#64
      · exact ⟨0#64, by simp [intOp, h]⟩
      · exact ⟨_, by simp only [intOp, hostSDiv, ne_eq, h, not_false_eq_true, if_true, if_neg this, if_false]; rfl⟩
    · have := host (by simp)
      by_cases h : zb = 0#64
      · exact ⟨0#64, by simp [intOp, h]⟩
      · exact ⟨_, by simp only [intOp, hostSRem, ne_eq, h, not_false_eq_true, if_true, if_neg this, if_false]; rfl⟩
    · have := host (by simp)
      by_cases h : zb = 0#64
      · exact ⟨0#64, by simp [intOp, h]⟩
      · exact ⟨_, by simp only [intOp, hostSRem, ne_eq, h, if_neg this, if_false]; rfl⟩
  obtain ⟨z, h3⟩ := h3
  obtain ⟨c, h4, h5, _⟩ := generateInt_spec hw s z
  refine ⟨c, ?_, h5⟩
  simp only [binaryInt, ty_width ha, ty_width hb, and_self, if_true, Option.bind_eq_bind,
    h1, h2, h3, h4, Option.bind_some]

theorem word_some {a : SConst} {w : Nat} {x : BitVec w} (hw : Width w)
    (ha : SDenotes a (.int w x)) :
    (w ≤ 32 → (word32 a).isSome) ∧ (w = 64 → (word64 a).isSome) := by
  obtain ⟨hpos, hcase⟩ := width_cases hw
  constructor
  · intro hle
    match a with
    | .bool _ => cases ha
    | .null .bool => cases ha
    | .null (.int ..) => rfl
    | .int w' s ws =>
        obtain ⟨rfl, h⟩ := ha
        rw [h]
        simp [literalWords, hle, word32]
  · rintro rfl
    rw [word64_spec ha]; rfl

theorem minmax_some {w : Nat} (hw : Width w) (s : Bool) {a b : SConst}
    {x y : BitVec w} (ha : SDenotes a (.int w x)) (hb : SDenotes b (.int w y)) :
    (∃ c, foldMin (.int w s) a b = some (some c) ∧ (c = a ∨ c = b)) ∧
    ∃ c, foldMax (.int w s) a b = some (some c) ∧ (c = a ∨ c = b) := by
  obtain ⟨hpos, hle | rfl⟩ := width_cases hw
  · obtain ⟨xa, h1⟩ := Option.isSome_iff_exists.mp ((word_some hw ha).1 hle)
    obtain ⟨xb, h2⟩ := Option.isSome_iff_exists.mp ((word_some hw hb).1 hle)
    refine ⟨⟨if lessThan s xa xb = true then a else b, by simp only [foldMin, hle, if_true, h1, h2, Option.bind_eq_bind,
      Option.bind_some], ?_⟩, ⟨if lessThan s xb xa = true then a else b, by simp only [foldMax, hle, if_true, h1, h2, Option.bind_eq_bind,
      Option.bind_some], ?_⟩⟩
    · split <;> simp
    · split <;> simp
  · obtain ⟨xa, h1⟩ := Option.isSome_iff_exists.mp ((word_some hw ha).2 rfl)
    obtain ⟨xb, h2⟩ := Option.isSome_iff_exists.mp ((word_some hw hb).2 rfl)
    have hn : ¬ (64 ≤ 32) := by omega
    refine ⟨⟨if lessThan s xa xb = true then a else b, by simp only [foldMin, hn, if_false, if_true, h1, h2, Option.bind_eq_bind,
      Option.bind_some], ?_⟩, ⟨if lessThan s xb xa = true then a else b, by simp only [foldMax, hn, if_false, if_true, h1, h2,
      Option.bind_eq_bind, Option.bind_some], ?_⟩⟩
    · split <;> simp
    · split <;> simp

/-! ## Lifting -/

/-- A scalar constant for a scalar type, components of the right number for a vector type. -/
def Form (c : Const) (ty : Ty) : Prop :=
  match ty with
  | .scalar _ => ∃ a, c = .scalar a
  | .vec n _ => vectorComponents c = some (compsOf c) ∧ (compsOf c).length = n

theorem form_of_ty {c : Const} {ty oty : Ty} (h : ConstHasTy c oty) (hs : Shape ty oty) :
    Form c ty := by
  match ty, oty with
  | .scalar _, .scalar _ =>
      obtain ⟨a, rfl, _⟩ := constHasTy_scalar h
      exact ⟨a, rfl⟩
  | .vec n _, .vec m _ =>
      obtain ⟨rfl, _⟩ := hs
      exact compsOf_vec h
  | .scalar _, .vec .. => cases hs
  | .vec .., .scalar _ => cases hs

theorem form_of_outer {c : Const} {ty : Ty} (h : Outer c ty) : Form c ty := by
  match c, ty with
  | .scalar c, .scalar t => exact ⟨c, rfl⟩
  | .scalar c, .vec .. => cases h
  | .vec .., .scalar _ => cases h
  | .nullVec .., .scalar _ => cases h
  | .vec t' cs, .vec n t => exact ⟨rfl, h.2⟩
  | .nullVec n' t', .vec n t => cases h

/-- A rule that never faults lifts; the result is made of the rule's results. -/
theorem applyBinary_some {rule : STy → SConst → SConst → Option (Option SConst)} {ty : Ty}
    {a b : Const} {P : SConst → Prop} (ha : Form a ty) (hb : Form b ty)
    (h : ∀ (k : Nat) x y, (compsOf a)[k]? = some x → (compsOf b)[k]? = some y →
      ∃ r, rule (elem ty) x y = some (some r) ∧ P r) :
    ∃ o, applyBinary rule ty a b = some o ∧
      (∀ c, o = some c → Form c ty ∧ ∀ r ∈ compsOf c, P r) ∧
      ((∀ r, P r → r.ty = elem ty) → 0 < dim ty → ∃ c, o = some c) := by
  match ty with
  | .scalar t =>
      obtain ⟨a, rfl⟩ := ha
      obtain ⟨b, rfl⟩ := hb
      obtain ⟨r, hr, hp⟩ := h 0 a b rfl rfl
      refine ⟨some (.scalar r), ?_, ?_, fun _ _ => ⟨_, rfl⟩⟩
      · simp only [elem] at hr
        simp [applyBinary, hr]
      · rintro c ⟨⟩
        exact ⟨⟨r, rfl⟩, by simpa [compsOf] using hp⟩
  | .vec n t =>
      obtain ⟨hva, hla⟩ := ha
      obtain ⟨hvb, hlb⟩ := hb
      have h1 := compsBinary_some (rule := rule t) (show (compsOf a).length = (compsOf b).length by omega)
        (fun k x y hx hy => by obtain ⟨r, hr, _⟩ := h k x y hx hy; simp only [elem] at hr; simp [hr])
      have h2 := compsBinary_ne (rule := rule t) (as := compsOf a) (bs := compsOf b)
        (fun k x y hx hy => by obtain ⟨r, hr, _⟩ := h k x y hx hy; simp only [elem] at hr; simp [hr])
      cases hc : compsBinary (rule t) (compsOf a) (compsOf b) with
      | none => rw [hc] at h1; cases h1
      | some o =>
          cases o with
          | none => exact absurd hc h2
          | some rs =>
              obtain ⟨l1, l2, l3⟩ := compsBinary_spec hc
              have hP : ∀ r ∈ rs, P r := by
                intro r hr
                obtain ⟨k, hk⟩ := List.mem_iff_getElem?.mp hr
                have hlt := (List.getElem?_eq_some_iff.mp hk).1
                have e1 : (compsOf a)[k]? = some _ := List.getElem?_eq_getElem (by omega)
                have e2 : (compsOf b)[k]? = some _ := List.getElem?_eq_getElem (by omega)
                obtain ⟨r', hr', hp⟩ := h k _ _ e1 e2
                have := l3 k _ _ _ e1 e2 hk
                simp only [elem] at hr'
                rw [hr'] at this
                cases this
                exact hp
              refine ⟨makeVec t rs, ?_, ?_, ?_⟩
              · simp [applyBinary, hva, hvb, hc]
              · intro c hc'
                have := makeVec_some hc'
                subst this
                exact ⟨⟨rfl, by simp [compsOf]; omega⟩, hP⟩
              · intro ht hd
                refine ⟨_, makeVec_same ?_ (fun r hr => ht r (hP r hr))⟩
                intro h0
                subst h0
                simp [dim] at hd l1
                omega

theorem foldUnaryOp_some {rule : STy → SConst → Option (Option SConst)} {i : Instr} {x : Operand}
    (hargs : i.args = [x])
    (h : ∀ a, x.const = some a → Form a i.ty ∧ ∀ (k : Nat) c, (compsOf a)[k]? = some c →
      (rule (elem i.ty) c).isSome) : (foldUnaryOp rule i).isSome := by
  simp only [foldUnaryOp, hargs]
  cases hxa : x.const with
  | none => rfl
  | some a =>
      obtain ⟨hf, hr⟩ := h a hxa
      match hty : i.ty with
      | .scalar t =>
          rw [hty] at hf hr
          obtain ⟨a, rfl⟩ := hf
          obtain ⟨o, ho⟩ := Option.isSome_iff_exists.mp (hr 0 a rfl)
          simp only [elem] at ho
          simp [ho]
      | .vec n t =>
          rw [hty] at hf hr
          have := compsUnary_some (rule := rule t) (as := compsOf a) (by
            intro c hc
            obtain ⟨k, hk⟩ := List.mem_iff_getElem?.mp hc
            exact hr k c hk)
          obtain ⟨o, ho⟩ := Option.isSome_iff_exists.mp this
          simp [hf.1, ho]

/-! ## Evaluation by words -/

theorem intWord_some {o : Operand} {v : Val} {t : STy} (hd : ∀ c, o.const = some c → Denotes c v)
    (hv : HasTy v (.scalar t)) (hf : t.foldable = true) : (intWord o).isSome := by
  obtain ⟨u, rfl, hu⟩ := scalar_val hv rfl
  unfold intWord
  split
  · rfl
  · rename_i w s ws hne hc
    exfalso
    obtain ⟨u', e, hs⟩ := hd _ hc
    cases e
    rcases foldable_val hu hf with ⟨x, rfl⟩ | ⟨b, rfl⟩
    · obtain ⟨rfl, hs⟩ := hs
      exact hne x (by rw [hs]; simp [literalWords])
    · cases hs
  · rfl

theorem foldByWords_some {i : Instr} {ρ : Nat → Val} (hw : WellTyped i) (hc : Consistent i ρ)
    (hn : ∀ o ∈ i.args, ∀ t cs, o.const = some (.vec t cs) → ∀ t', SConst.null t' ∉ cs)
    (hev : i.op.evaluated = true ∨ i.op.foldable = false ∨ allConsts i.args = none) :
    (foldByWords i).isSome := by
  -- operands by component
  have main : ∀ cs, allConsts i.args = some cs → (i.byScalar = true ∨ i.byVector = true) →
      i.op.foldable = true → ∀ (k : Nat) (word : Const → Option (BitVec 32)), k < dim i.ty →
      (∀ o ∈ i.args, ∀ c u, o.const = some c → (ρ o.id)[k]? = some u → word c = some (raw u)) →
      ∃ ws, cs.mapM word = some ws ∧ (operateWords i.op ws).isSome := by
    intro cs hcs hb hf k word hk hword
    obtain ⟨hft, hsh⟩ := by_shape hw hb
    have hev' : i.op.evaluated = true := by
      rcases hev with h | h | h
      · exact h
      · rw [hf] at h; cases h
      · rw [hcs] at h; cases h
    have hlt : ∀ o ∈ i.args, k < (ρ o.id).length := by
      intro o ho
      rw [(hc o ho).1.1, shape_dim (hsh o ho).1]; exact hk
    have hm : (cs.mapM word).isSome := by
      apply mapM_isSome
      intro c hcm
      obtain ⟨j, hj⟩ := List.mem_iff_getElem?.mp hcm
      obtain ⟨l1, l2⟩ := mapM_get hcs
      have hj' := (List.getElem?_eq_some_iff.mp hj).1
      have e : i.args[j]? = some _ := List.getElem?_eq_getElem (by omega)
      have hoc := l2 j _ _ e hj
      rw [hword _ (List.mem_of_getElem? e) c _ hoc
        (List.getElem?_eq_getElem (hlt _ (List.mem_of_getElem? e)))]
      rfl
    obtain ⟨ws, hws⟩ := Option.isSome_iff_exists.mp hm
    refine ⟨ws, hws, ?_⟩
    obtain ⟨us, e1, e2, e3⟩ := words_raw (ρ := ρ) (k := k) (fun o ho =>
      ⟨(hc o ho).1, hlt o ho, fun c x u h1 h2 h3 => by
        rw [hword o ho c u h1 h3] at h2; cases h2; rfl⟩) hcs hws
    obtain ⟨v, g, _⟩ := operate_good hev' hw.1 hft (by
      intro t' ht'
      obtain ⟨o, ho', rfl⟩ := List.mem_map.mp ht'
      exact (hsh o ho').2) e3
    rw [e2, g]; rfl
  unfold foldByWords
  split
  · rename_i t hty
    split
    · rename_i hb
      obtain ⟨hft, hsh⟩ := by_shape hw (Or.inl hb)
      have hf : i.op.foldable = true := by
        simp only [Instr.byScalar, Bool.and_eq_true] at hb; exact hb.1.1
      split
      · rename_i cs hcs
        obtain ⟨ws, h1, h2⟩ := main cs hcs (Or.inl hb) hf 0 scalarWord (by rw [hty]; simp [dim]) (by
          intro o ho c u hoc hu
          obtain ⟨vo, co, _⟩ := hc o ho
          obtain ⟨s1, s2⟩ := hsh o ho
          rw [hty] at s1
          match hot : o.ty with
          | .vec .. => rw [hot] at s1; cases s1
          | .scalar t' =>
              obtain ⟨ct, cd⟩ := co c hoc
              rw [hot] at ct s2 vo
              obtain ⟨a, rfl, _⟩ := constHasTy_scalar ct
              obtain ⟨u', hu', hd⟩ := cd
              rw [hu'] at hu vo
              cases hu
              exact scalarWord_raw hd (vo.2 _ (by simp)) s2)
        obtain ⟨v, h3⟩ := Option.isSome_iff_exists.mp h2
        simp [foldScalars, h1, h3]
      · have : (foldIntegerOp i.op i.args).isSome := by
          match hargs : i.args with
          | [] => rfl
          | [_] => rfl
          | _ :: _ :: _ :: _ => rfl
          | [x, y] =>
              have iw : ∀ o ∈ i.args, (intWord o).isSome := by
                intro o ho
                obtain ⟨vo, co, _⟩ := hc o ho
                obtain ⟨s1, s2⟩ := hsh o ho
                rw [hty] at s1
                match hot : o.ty with
                | .vec .. => rw [hot] at s1; cases s1
                | .scalar t' =>
                    rw [hot] at vo s2
                    exact intWord_some (fun c h => (co c h).2) vo s2
              obtain ⟨c0, h0⟩ := Option.isSome_iff_exists.mp (iw x (by simp [hargs]))
              obtain ⟨c1, h1⟩ := Option.isSome_iff_exists.mp (iw y (by simp [hargs]))
              simp only [foldIntegerOp, h0, h1, Option.bind_eq_bind, Option.bind_some]
              split <;> rfl
        obtain ⟨v, h3⟩ := Option.isSome_iff_exists.mp this
        simp [h3]
    · rfl
  · rename_i n t hty
    split
    · rename_i hb
      obtain ⟨hft, hsh⟩ := by_shape hw (Or.inr hb)
      have hf : i.op.foldable = true := by
        simp only [Instr.byVector, Bool.and_eq_true] at hb; exact hb.1.1
      split
      · rename_i cs hcs
        have : (foldVectors i.op n cs).isSome := by
          apply mapM_isSome
          intro k hk
          obtain ⟨ws, h1, h2⟩ := main cs hcs (Or.inr hb) hf k (vectorWord k)
            (by rw [hty]; simpa [dim] using hk) (by
            intro o ho c u hoc hu
            obtain ⟨vo, co, _⟩ := hc o ho
            obtain ⟨s1, s2⟩ := hsh o ho
            rw [hty] at s1
            match hot : o.ty with
            | .scalar .. => rw [hot] at s1; cases s1
            | .vec m t' =>
                obtain ⟨ct, cd⟩ := co c hoc
                rw [hot] at ct s2 vo
                have : (vectorWord k c).isSome := by
                  match c with
                  | .scalar _ => cases ct
                  | .nullVec .. => rfl
                  | .vec t'' ds =>
                      have hlt : k < ds.length := by
                        rw [cd.1]; exact (List.getElem?_eq_some_iff.mp hu).1
                      have e := List.getElem?_eq_getElem hlt
                      have hnn := hn o ho t'' ds hoc
                      have hsd := cd.2 k _ _ e hu
                      have hr := scalarWord_raw hsd (vo.2 _ (List.mem_of_getElem? hu)) s2
                      simp only [vectorWord, e]
                      revert hr hnn
                      have hmem := List.getElem_mem hlt
                      revert hmem
                      generalize ds[k] = d
                      intro hmem hnn hr
                      simp only [scalarWord] at hr
                      match d with
                      | .null t3 => exact absurd hmem (hnn t3)
                      | .bool b => rfl
                      | .int w s ws =>
                          simp only [SConst.words?] at hr ⊢
                          split at hr
                          · rename_i h; cases h; rfl
                          · cases hr
                          · rename_i h; cases h
                obtain ⟨x, hx⟩ := Option.isSome_iff_exists.mp this
                rw [hx, vectorWord_raw ct cd vo s2 hu hx])
          obtain ⟨v, h3⟩ := Option.isSome_iff_exists.mp h2
          simp [h1, h3]
        obtain ⟨vs, h3⟩ := Option.isSome_iff_exists.mp this
        simp [h3]
      · rfl
    · rfl

/-! ## Rules never fault -/

theorem tryRules_some {i : Instr} : ∀ {rs : List (Instr → Option (Option Const))},
    (∀ r ∈ rs, (r i).isSome) → (tryRules i rs).isSome
  | [], _ => rfl
  | r :: rs, h => by
      have h1 := h r (by simp)
      have h2 := tryRules_some (rs := rs) (fun r' hr' => h r' (by simp [hr']))
      simp only [tryRules]
      split
      · rename_i h3; rw [h3] at h1; cases h1
      · rfl
      · exact h2

/-- Components of an operand's constant denote integers of the operand's width. -/
theorem operand_comps {i : Instr} {ρ : Nat → Val} (hc : Consistent i ρ) {o : Operand}
    (ho : o ∈ i.args) (hs : Shape i.ty o.ty) {w : Nat} {s : Bool} (ht : elem o.ty = .int w s)
    {a : Const} (ha : o.const = some a) :
    Form a i.ty ∧ ∀ (k : Nat) c, (compsOf a)[k]? = some c →
      ∃ x, (ρ o.id)[k]? = some (.int w x) ∧ SDenotes c (.int w x) := by
  obtain ⟨vo, co, _⟩ := hc o ho
  obtain ⟨ta, da⟩ := co a ha
  refine ⟨form_of_ty ta hs, ?_⟩
  intro k c hk
  obtain ⟨la, ka⟩ := compsOf_ok ta da
  have hlt : k < (ρ o.id).length := by rw [← la]; exact (List.getElem?_eq_some_iff.mp hk).1
  have e := List.getElem?_eq_getElem hlt
  have := vo.2 _ (List.getElem_mem hlt)
  rw [ht] at this
  obtain ⟨x, hx⟩ := typed_int this
  rw [hx] at e
  exact ⟨x, e, (ka k c _ hk e).1⟩

theorem dim_pos {i : Instr} (hw : WellTyped i) : 0 < dim i.ty := by
  have hs := hw.2
  unfold shapeRule at hs
  split at hs
  · rename_i t ht; rw [ht]; simp [dim]
  · rename_i n t ht; rw [ht]; simp [dim]; omega

theorem arith_some {i : Instr} {ρ : Nat → Val} (hw : WellTyped i) (hc : Consistent i ρ)
    (hsafe : Safe i ρ) (hop : i.op.arith) :
    ∃ o, foldBinaryOp (binaryInt i.op) i = some o ∧ (o = none → allConsts i.args = none) := by
  obtain ⟨w, s, s1, s2, hww, ht, hts, -⟩ := arith_elem hop hw.1
  obtain ⟨x, y, hargs, hx, hy⟩ := map_two hts
  have ix : x ∈ i.args := by simp [hargs]
  have iy : y ∈ i.args := by simp [hargs]
  have hns := arith_ne_select hop
  simp only [foldBinaryOp, hargs]
  cases hxa : x.const with
  | none => exact ⟨none, rfl, by simp [allConsts, hxa]⟩
  | some a =>
      cases hyb : y.const with
      | none => exact ⟨none, rfl, by simp [allConsts, hxa, hyb]⟩
      | some b =>
          obtain ⟨fa, ca⟩ := operand_comps hc ix (wellTyped_shape hw hns x ix) hx hxa
          obtain ⟨fb, cb⟩ := operand_comps hc iy (wellTyped_shape hw hns y iy) hy hyb
          obtain ⟨o, h1, _, h3⟩ := applyBinary_some (P := fun r => r.ty = elem i.ty)
            (rule := binaryInt i.op) fa fb (by
            intro k p q hp hq
            obtain ⟨xp, ep, dp⟩ := ca k p hp
            obtain ⟨xq, eq, dq⟩ := cb k q hq
            rw [ht]
            exact binaryInt_safe hop hww s dp dq (by
              rintro ⟨ho, rfl, m1, m2⟩
              exact hsafe.div64 ho x y hargs k xp xq ep eq ⟨m1, m2⟩))
          refine ⟨o, h1, ?_⟩
          rintro rfl
          obtain ⟨c, hc'⟩ := h3 (fun r hr => hr) (dim_pos hw)
          cases hc'

theorem uniform_some {ty : Ty} (hok : ∀ w s, elem ty = .int w s → Width w) (v : BitVec 64) :
    (uniformValue ty v).isSome := by
  match ty with
  | .scalar .bool => rfl
  | .vec _ .bool => rfl
  | .scalar (.int w s) =>
      obtain ⟨c, h, _⟩ := generateInt_spec (hok w s rfl) s v
      simp [uniformValue, h]
  | .vec n (.int w s) =>
      obtain ⟨c, h, _⟩ := generateInt_spec (hok w s rfl) s v
      simp [uniformValue, h]

/-- Neither the rules nor the evaluation by words run into undefined behaviour. -/
theorem foldToConstant_some {i : Instr} {ρ : Nat → Val} (hw : WellTyped i) (hc : Consistent i ρ)
    (hsafe : Safe i ρ) : (foldToConstant i).isSome := by
  have words := foldByWords_some hw hc hsafe.nullComp
  have finish : (∃ o, tryRules i (constRules i.op) = some o ∧
      (o = none → i.op.evaluated = true ∨ i.op.foldable = false ∨ allConsts i.args = none)) →
      (foldToConstant i).isSome := by
    rintro ⟨o, h1, h2⟩
    simp only [foldToConstant, h1]
    cases o with
    | none => exact words (h2 rfl)
    | some c => rfl
  apply finish
  by_cases har : i.op.arith
  · obtain ⟨o, h1, h2⟩ := arith_some hw hc hsafe har
    obtain ⟨w, s, s1, s2, hww, ht, hts, -⟩ := arith_elem har hw.1
    obtain ⟨x, y, hargs, hx, hy⟩ := map_two hts
    have hok : ∀ w s, elem i.ty = .int w s → Width w := by
      intro w' s' h'
      rw [ht] at h'; cases h'; exact hww
    have hsub : (foldRedundantSub i).isSome := by
      simp only [foldRedundantSub, hargs]
      split
      · split <;> rfl
      · rfl
    have hdiv : (foldRedundantDiv i).isSome := by
      simp only [foldRedundantDiv, hargs]
      split
      · rfl
      split
      · exact uniform_some hok _
      split
      · rfl
      split
      · exact uniform_some hok _
      split
      · exact uniform_some hok _
      · rfl
    cases o with
    | some c =>
        refine ⟨some c, ?_, fun h => by cases h⟩
        rcases har with h | h | h | h | h | h | h | h <;> rw [h] at h1 ⊢ <;>
          simp [constRules, tryRules, h1]
    | none =>
        have hc' := h2 rfl
        have : (tryRules i (constRules i.op)).isSome := by
          apply tryRules_some
          intro r hr
          rcases har with h | h | h | h | h | h | h | h <;> rw [h] at h1 hr <;>
            simp [constRules] at hr <;>
            first
            | (rcases hr with rfl | rfl
               · rw [h1]; rfl
               · first | exact hsub | exact hdiv)
            | (subst hr; rw [h1]; rfl)
        obtain ⟨o, ho⟩ := Option.isSome_iff_exists.mp this
        exact ⟨o, ho, fun _ => Or.inr (Or.inr hc')⟩
  · by_cases hmm : i.op.minmax
    · obtain ⟨w, s, s1, s2, hww, ht, hts⟩ := minmax_elem hmm hw.1
      obtain ⟨x, y, hargs, hx, hy⟩ := map_two hts
      have ix : x ∈ i.args := by simp [hargs]
      have iy : y ∈ i.args := by simp [hargs]
      have hns : i.op ≠ .select := by rcases hmm with h | h | h | h <;> rw [h] <;> decide
      have key : (foldFPBinaryOp foldMin i).isSome ∧ (foldFPBinaryOp foldMax i).isSome := by
        simp only [foldFPBinaryOp, foldBinaryOp, hargs]
        split
        · exact ⟨rfl, rfl⟩
        · cases hxa : x.const with
          | none => exact ⟨rfl, rfl⟩
          | some a =>
              cases hyb : y.const with
              | none => exact ⟨rfl, rfl⟩
              | some b =>
                  obtain ⟨fa, ca⟩ := operand_comps hc ix (wellTyped_shape hw hns x ix) hx hxa
                  obtain ⟨fb, cb⟩ := operand_comps hc iy (wellTyped_shape hw hns y iy) hy hyb
                  constructor
                  · obtain ⟨o, h1, _⟩ := applyBinary_some (P := fun _ => True)
                      (rule := foldMin) fa fb (by
                      intro k p q hp hq
                      obtain ⟨xp, ep, dp⟩ := ca k p hp
                      obtain ⟨xq, eq, dq⟩ := cb k q hq
                      rw [ht]
                      obtain ⟨⟨c, hc', _⟩, _⟩ := minmax_some hww s dp dq
                      exact ⟨c, hc', trivial⟩)
                    simp [h1]
                  · obtain ⟨o, h1, _⟩ := applyBinary_some (P := fun _ => True)
                      (rule := foldMax) fa fb (by
                      intro k p q hp hq
                      obtain ⟨xp, ep, dp⟩ := ca k p hp
                      obtain ⟨xq, eq, dq⟩ := cb k q hq
                      rw [ht]
                      obtain ⟨_, ⟨c, hc', _⟩⟩ := minmax_some hww s dp dq
                      exact ⟨c, hc', trivial⟩)
                    simp [h1]
      have : (tryRules i (constRules i.op)).isSome := by
        apply tryRules_some
        intro r hr
        rcases hmm with h | h | h | h <;> rw [h] at hr <;> simp [constRules] at hr <;> subst hr
        · exact key.1
        · exact key.1
        · exact key.2
        · exact key.2
      obtain ⟨o, ho⟩ := Option.isSome_iff_exists.mp this
      refine ⟨o, ho, fun _ => Or.inr (Or.inl ?_)⟩
      rcases hmm with h | h | h | h <;> rw [h] <;> rfl
    · by_cases hcl : i.op = .sClamp ∨ i.op = .uClamp
      · have hns : i.op ≠ .select := by rcases hcl with h | h <;> rw [h] <;> decide
        have hel : ∃ w s s1 s2 s3, Width w ∧ elem i.ty = .int w s ∧
            (i.args.map fun o => elem o.ty) = [.int w s1, .int w s2, .int w s3] := by
          have h := hw.1
          rcases hcl with ho | ho <;> rw [ho] at h <;> exact h
        obtain ⟨w, s, s1, s2, s3, hww, ht, hts⟩ := hel
        obtain ⟨x, y, z, hargs, hx, hy, hz⟩ := map_three hts
        have ix : x ∈ i.args := by simp [hargs]
        have iy : y ∈ i.args := by simp [hargs]
        have iz : z ∈ i.args := by simp [hargs]
        let P : SConst → Prop := fun r => ∃ x : BitVec w, SDenotes r (.int w x)
        have mm : ∀ {a b : Const}, Form a i.ty → Form b i.ty → (∀ r ∈ compsOf a, P r) →
            (∀ r ∈ compsOf b, P r) →
            (∃ o, applyBinary foldMax i.ty a b = some o ∧
              ∀ c, o = some c → Form c i.ty ∧ ∀ r ∈ compsOf c, P r) ∧
            (∃ o, applyBinary foldMin i.ty a b = some o ∧
              ∀ c, o = some c → Form c i.ty ∧ ∀ r ∈ compsOf c, P r) := by
          intro a b fa fb pa pb
          constructor
          · obtain ⟨o, h1, h2, _⟩ := applyBinary_some (P := P) (rule := foldMax) fa fb (by
              intro k p q hp hq
              obtain ⟨xp, dp⟩ := pa p (List.mem_of_getElem? hp)
              obtain ⟨xq, dq⟩ := pb q (List.mem_of_getElem? hq)
              rw [ht]
              obtain ⟨_, ⟨c, hc', h'⟩⟩ := minmax_some hww s dp dq
              refine ⟨c, hc', ?_⟩
              rcases h' with rfl | rfl
              · exact ⟨_, dp⟩
              · exact ⟨_, dq⟩)
            exact ⟨o, h1, h2⟩
          · obtain ⟨o, h1, h2, _⟩ := applyBinary_some (P := P) (rule := foldMin) fa fb (by
              intro k p q hp hq
              obtain ⟨xp, dp⟩ := pa p (List.mem_of_getElem? hp)
              obtain ⟨xq, dq⟩ := pb q (List.mem_of_getElem? hq)
              rw [ht]
              obtain ⟨⟨c, hc', h'⟩, _⟩ := minmax_some hww s dp dq
              refine ⟨c, hc', ?_⟩
              rcases h' with rfl | rfl
              · exact ⟨_, dp⟩
              · exact ⟨_, dq⟩)
            exact ⟨o, h1, h2⟩
        have get : ∀ o ∈ i.args, ∀ sg, elem o.ty = .int w sg → ∀ a, o.const = some a →
            Form a i.ty ∧ ∀ r ∈ compsOf a, P r := by
          intro o ho sg hsg a ha
          obtain ⟨f, c⟩ := operand_comps hc ho (wellTyped_shape hw hns o ho) hsg ha
          refine ⟨f, ?_⟩
          intro r hr
          obtain ⟨k, hk⟩ := List.mem_iff_getElem?.mp hr
          obtain ⟨q, _, d⟩ := c k r hk
          exact ⟨q, d⟩
        have r1 : (foldClamp1 i).isSome := by
          simp only [foldClamp1, hargs]
          split
          · rename_i a b d hxa hyb hzd
            obtain ⟨fa, pa⟩ := get x ix _ hx a hxa
            obtain ⟨fb, pb⟩ := get y iy _ hy b hyb
            obtain ⟨fd, pd⟩ := get z iz _ hz d hzd
            obtain ⟨⟨o, h1, h2⟩, _⟩ := mm fa fb pa pb
            rw [h1]
            cases o with
            | none => rfl
            | some t =>
                obtain ⟨ft, pt⟩ := h2 t rfl
                obtain ⟨_, ⟨o', h3, _⟩⟩ := mm ft fd pt pd
                simp [h3]
          · rfl
        have r2 : (foldClamp2 i).isSome := by
          simp only [foldClamp2, hargs]
          split
          · rename_i a b hxa hyb
            obtain ⟨fa, pa⟩ := get x ix _ hx a hxa
            obtain ⟨fb, pb⟩ := get y iy _ hy b hyb
            obtain ⟨⟨o, h1, h2⟩, _⟩ := mm fa fb pa pb
            simp only [h1, Option.bind_eq_bind, Option.bind_some]
            split <;> rfl
          · rfl
        have r3 : (foldClamp3 i).isSome := by
          simp only [foldClamp3, hargs]
          split
          · rename_i a d hxa hzd
            obtain ⟨fa, pa⟩ := get x ix _ hx a hxa
            obtain ⟨fd, pd⟩ := get z iz _ hz d hzd
            obtain ⟨_, ⟨o, h1, h2⟩⟩ := mm fa fd pa pd
            simp only [h1, Option.bind_eq_bind, Option.bind_some]
            split <;> rfl
          · rfl
        have : (tryRules i (constRules i.op)).isSome := by
          apply tryRules_some
          intro r hr
          rcases hcl with h | h <;> rw [h] at hr <;> simp [constRules] at hr <;>
            rcases hr with rfl | rfl | rfl <;> assumption
        obtain ⟨o, ho⟩ := Option.isSome_iff_exists.mp this
        refine ⟨o, ho, fun _ => Or.inr (Or.inl ?_)⟩
        rcases hcl with h | h <;> rw [h] <;> rfl
      · -- the rest is known to the evaluator
        have hev : i.op.evaluated = true := by
          revert har hmm hcl
          cases i.op <;> simp [Op.arith, Op.minmax, Op.evaluated]
        have : (tryRules i (constRules i.op)).isSome := by
          apply tryRules_some
          intro r hr
          have hw1 := hw.1
          by_cases h1 : i.op = .sNegate
          · rw [h1] at hr hw1
            simp [constRules] at hr
            subst hr
            obtain ⟨w, s, s1, hww, ht, hts⟩ := hw1
            obtain ⟨x, hargs, hx⟩ := map_one hts
            have ix : x ∈ i.args := by simp [hargs]
            apply foldUnaryOp_some hargs
            intro a ha
            obtain ⟨f, c⟩ := operand_comps hc ix
              (wellTyped_shape hw (by rw [h1]; decide) x ix) hx ha
            refine ⟨f, ?_⟩
            intro k q hq
            obtain ⟨z, ez, dz⟩ := c k q hq
            rw [ht]
            refine (negateInt_good hww s dz).1 ?_
            rintro ⟨rfl, hm⟩
            exact hsafe.neg64 h1 x hargs z (List.mem_of_getElem? ez) hm
          by_cases h2 : i.op = .uConvert
          · rw [h2] at hr hw1
            simp [constRules] at hr
            subst hr
            obtain ⟨w, w1, s1, hww, hww1, -, ht, hts⟩ := hw1
            obtain ⟨x, hargs, hx⟩ := map_one hts
            have ix : x ∈ i.args := by simp [hargs]
            apply foldUnaryOp_some hargs
            intro a ha
            obtain ⟨f, c⟩ := operand_comps hc ix
              (wellTyped_shape hw (by rw [h2]; decide) x ix) hx ha
            refine ⟨f, ?_⟩
            intro k q hq
            obtain ⟨z, ez, dz⟩ := c k q hq
            rw [ht]
            obtain ⟨c', h', _⟩ := uConvert_good hww hww1 false dz
            rw [h']; rfl
          by_cases h3 : i.op = .sConvert
          · rw [h3] at hr hw1
            simp [constRules] at hr
            subst hr
            obtain ⟨w, s, w1, s1, hww, hww1, -, ht, hts⟩ := hw1
            obtain ⟨x, hargs, hx⟩ := map_one hts
            have ix : x ∈ i.args := by simp [hargs]
            apply foldUnaryOp_some hargs
            intro a ha
            obtain ⟨f, c⟩ := operand_comps hc ix
              (wellTyped_shape hw (by rw [h3]; decide) x ix) hx ha
            refine ⟨f, ?_⟩
            intro k q hq
            obtain ⟨z, ez, dz⟩ := c k q hq
            rw [ht]
            obtain ⟨z', e1, _⟩ := signExtended_spec hww1 dz
            obtain ⟨c', e2, _⟩ := generateInt_spec hww s z'
            simp [sConvert, e1, e2]
          by_cases h4 : i.op = .select
          · rw [h4] at hr hw1
            simp [constRules] at hr
            subst hr
            obtain ⟨x, y, z, hargs, -⟩ := map_three hw1.2
            simp only [foldInvariantSelect, hargs]
            split
            · split
              · rfl
              · split <;> rfl
            · rfl
          · exfalso
            revert hr har hmm hcl
            cases hq : i.op <;> simp [constRules, Op.arith, Op.minmax] <;> simp_all
        obtain ⟨o, ho⟩ := Option.isSome_iff_exists.mp this
        exact ⟨o, ho, fun _ => Or.inl hev⟩

end Verif.Fold
