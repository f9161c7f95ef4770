import Verif.Rules.Views

set_option linter.unusedSimpArgs false
set_option linter.unusedVariables false
set_option linter.unusedSectionVars false

/-! # The rules for logical instructions, comparisons and selects -/
namespace Verif.Rules

variable {F : Type} [FloatSem F] [DecidableEq F] {env : Env F} {d : Inst} {new : New F}
  {ρ : Id → Option (Val F)} {i : Nat}

theorem allows_hasTy {op : Op} {ty : Ty} {args : List (Option (Val F))} {s : SV F}
    (h : (lane op ty args i).allows ty.base s) : s.hasTy ty.base = true := by
  unfold lane at h
  cases hr : raw op ty args i with
  | ub => simp [hr, R.check, R.allows] at h
  | any => simpa [hr, R.check, R.allows] using h
  | undef u =>
    simp only [hr, R.check] at h
    split at h
    · simpa [R.allows] using h
    · simp [R.allows] at h
  | ok v =>
    simp only [hr, R.check] at h
    split at h
    · simp only [R.allows] at h; subst h; assumption
    · simp [R.allows] at h

theorem hasTy_same {b0 : Base} {u v : SV F} (hu : u.hasTy b0 = true) (hv : v.hasTy b0 = true) (b : Base) :
    u.hasTy b = v.hasTy b := by
  cases u <;> cases v <;> cases b0 <;> simp_all [SV.hasTy]

theorem hasTy_bool {u : SV F} (h : u.hasTy .bool = true) : ∃ b, u = .b b := by
  cases u <;> simp_all [SV.hasTy]

theorem b_hasTy {b : Base} {v : Bool} (h : SV.hasTy (F := F) b (.b v) = true) : b = .bool := by
  cases b <;> simp_all [SV.hasTy]

theorem redundantAnd_refines (hop : d.op = .land) (h : redundantAnd env d = .ret new) :
    Refines env d new := by
  simp only [redundantAnd, bind_ret, need_ret, to_ret, beq_iff_eq] at h
  obtain ⟨c, h1, _, hk, x, hx, rfl⟩ := h
  obtain ⟨c, rfl, hk⟩ := Option.bind_eq_some_iff.1 hk
  apply refines0
  intro ρ hc i hi hu
  obtain ⟨s, hs, ht⟩ := self_ok (by rw [hop]; rfl) hu
  rw [hs]; rw [hop] at hs
  obtain ⟨p, q, a, b, hl, ha, hb, rfl⟩ := inv_land hs
  rcases constPair hl h1 hx with ⟨rfl, hp⟩ | ⟨rfl, hp, _⟩
  · have := Const.boolKind_b hk (hc.const_lane ha hp); subst this
    simp [Le, raw, Ref.val, hb]
  · have := Const.boolKind_b hk (hc.const_lane hb hp); subst this
    simp [Le, raw, Ref.val, ha]

theorem redundantOr_refines (hop : d.op = .lor) (h : redundantOr env d = .ret new) :
    Refines env d new := by
  simp only [redundantOr, bind_ret, need_ret, to_ret, beq_iff_eq] at h
  obtain ⟨c, h1, _, hk, x, hx, rfl⟩ := h
  obtain ⟨c, rfl, hk⟩ := Option.bind_eq_some_iff.1 hk
  apply refines0
  intro ρ hc i hi hu
  obtain ⟨s, hs, ht⟩ := self_ok (by rw [hop]; rfl) hu
  rw [hs]; rw [hop] at hs
  obtain ⟨p, q, a, b, hl, ha, hb, rfl⟩ := inv_lor hs
  rcases constPair hl h1 hx with ⟨rfl, hp⟩ | ⟨rfl, hp, _⟩
  · have := Const.boolKind_b hk (hc.const_lane ha hp); subst this
    simp [Le, raw, Ref.val, hb]
  · have := Const.boolKind_b hk (hc.const_lane hb hp); subst this
    simp [Le, raw, Ref.val, ha]

theorem redundantNot_refines (hop : d.op = .lnot) (h : redundantNot env d = .ret new) :
    Refines env d new := by
  simp only [redundantNot, bind_ret, need_ret, to_ret, beq_iff_eq, Inst.arg, at?_ret] at h
  obtain ⟨x, hx, _, he, y, hy, rfl⟩ := h
  apply refines0
  intro ρ hc i hi hu
  obtain ⟨s, hs, ht⟩ := self_ok (by rw [hop]; rfl) hu
  rw [hs]; rw [hop] at hs
  obtain ⟨p, a, hl, ha, rfl⟩ := inv_lnot hs
  simp [hl] at hx; subst hx
  obtain ⟨q, b, hl', hb, h⟩ := inv_lnot (hc.def' ha he rfl); cases h
  simp [hl'] at hy; subst hy
  simp [Le, raw, Ref.val, hb]

theorem redundantLogicalEqual_refines (hop : d.op = .leq ∨ d.op = .lne)
    (h : redundantLogicalEqual env d = .ret new) : Refines env d new := by
  simp only [redundantLogicalEqual, bind_ret, need_ret, to_ret, beq_iff_eq, Inst.arg, at?_ret,
    some?_ret] at h
  obtain ⟨_, h1, c, rfl, _, _, _, _, v, hk, y, hy, rfl⟩ := h
  apply refines0
  intro ρ hc i hi hu
  obtain ⟨s, hs, ht⟩ := self_ok (by rcases hop with h | h <;> rw [h] <;> rfl) hu
  rw [hs]
  rcases hop with hop | hop <;> rw [hop] at hs
  · obtain ⟨p, q, a, b, hl, ha, hb, rfl⟩ := inv_leq hs
    rcases constPair hl h1 hy with ⟨rfl, hp⟩ | ⟨rfl, hp, _⟩
    · have := Const.boolKind_b hk (hc.const_lane ha hp); subst this
      cases a <;> simp [Le, raw, Ref.val, hb, hop, b1]
    · have := Const.boolKind_b hk (hc.const_lane hb hp); subst this
      cases b <;> simp [Le, raw, Ref.val, ha, hop, b1]
  · obtain ⟨p, q, a, b, hl, ha, hb, rfl⟩ := inv_lne hs
    rcases constPair hl h1 hy with ⟨rfl, hp⟩ | ⟨rfl, hp, _⟩
    · have := Const.boolKind_b hk (hc.const_lane ha hp); subst this
      cases a <;> simp [Le, raw, Ref.val, hb, hop, b1]
    · have := Const.boolKind_b hk (hc.const_lane hb hp); subst this
      cases b <;> simp [Le, raw, Ref.val, ha, hop, b1]

theorem ult_not {w : Nat} (a b : BitVec w) : b.ule a = !a.ult b := by
  simp [BitVec.ule, BitVec.ult]; by_cases h : a.toNat < b.toNat <;> simp [h] <;> omega

theorem slt_not {w : Nat} (a b : BitVec w) : b.sle a = !a.slt b := by
  simp [BitVec.sle, BitVec.slt]; by_cases h : a.toInt < b.toInt <;> simp [h] <;> omega

/-- The negated comparison gives the negated result. -/
theorem negated_icmp {k k' : ICmp} (h : negatedComparison (.icmp k) = some (.icmp k')) {w : Nat}
    (a b : BitVec w) : k'.eval a b = !k.eval a b := by
  cases k <;> simp [negatedComparison] at h <;> subst h <;> simp [ICmp.eval, ult_not, slt_not, bne]

theorem negated_fcmp {o o' : Bool} {k k' : FCmpKind}
    (h : negatedComparison (.fcmp o k) = some (.fcmp o' k')) (c : Cmp) :
    k'.eval o' c = !k.eval o c := by
  cases o <;> cases k <;> simp [negatedComparison] at h <;> obtain ⟨rfl, rfl⟩ := h <;> cases c <;> rfl

theorem notComparison_refines (hop : d.op = .lnot) (h : notComparison env d = .ret new) :
    Refines env d new := by
  simp only [notComparison, bind_ret, need_ret, to_ret, some?_ret, Inst.arg, at?_ret] at h
  obtain ⟨x, hx, _, _, op, hneg, y, hy, z, hz, rfl⟩ := h
  apply refines0
  intro ρ hc i hi hu
  obtain ⟨s, hs, ht⟩ := self_ok (by rw [hop]; rfl) hu
  rw [hs]; rw [hop] at hs
  obtain ⟨p, a, hl, ha, rfl⟩ := inv_lnot hs
  simp [hl] at hx; subst hx
  cases he : (env.get p).op with
  | icmp k =>
    obtain ⟨q, r, w, b, c, hl', hb, hcc, h⟩ := inv_icmp (hc.def' ha he rfl); cases h
    simp [hl'] at hy hz; subst hy; subst hz
    rw [he] at hneg
    have : ∃ k', op = .icmp k' := by
      cases k <;> simp [negatedComparison] at hneg <;> exact ⟨_, hneg.symm⟩
    obtain ⟨k', rfl⟩ := this
    simp [Le, raw, Ref.val, hb, hcc, negated_icmp hneg]
  | fcmp o k =>
    obtain ⟨q, r, b, c, hl', hb, hcc, h⟩ := inv_fcmp (hc.def' ha he rfl); cases h
    simp [hl'] at hy hz; subst hy; subst hz
    rw [he] at hneg
    have : ∃ o' k', op = .fcmp o' k' := by
      cases o <;> cases k <;> simp [negatedComparison] at hneg <;> exact ⟨_, _, hneg.symm⟩
    obtain ⟨o', k', rfl⟩ := this
    simp [Le, raw, Ref.val, hb, hcc, negated_fcmp hneg, f2]
  | leq =>
    obtain ⟨q, r, b, c, hl', hb, hcc, h⟩ := inv_leq (hc.def' ha he rfl); cases h
    simp [hl'] at hy hz; subst hy; subst hz
    rw [he] at hneg; simp [negatedComparison] at hneg; subst hneg
    simp [Le, raw, Ref.val, hb, hcc, b2, bne]
  | lne =>
    obtain ⟨q, r, b, c, hl', hb, hcc, h⟩ := inv_lne (hc.def' ha he rfl); cases h
    simp [hl'] at hy hz; subst hy; subst hz
    rw [he] at hneg; simp [negatedComparison] at hneg; subst hneg
    simp [Le, raw, Ref.val, hb, hcc, b2, bne]
  | _ => rw [he] at hneg; simp [negatedComparison] at hneg

/-! ## Selects -/

theorem bc_ln {x : Option (Val F)} {s : SV F} (h : bc x i = some s) (hn : x.map List.length = some 1 → i = 0) :
    ln x i = some s := by
  cases x with
  | none => simp [bc] at h
  | some v =>
    simp only [bc, Option.bind_some] at h
    split at h
    · rename_i h1
      have := hn (by simpa using h1); subst this; simpa using h
    · simpa using h

theorem bc_some {x : Option (Val F)} {s : SV F} (h : bc x i = some s) : ∃ v, x = some v := by
  cases x with
  | none => simp [bc] at h
  | some v => exact ⟨v, rfl⟩

theorem bc_mem {v : Val F} {s : SV F} (h : bc (some v) i = some s) : s ∈ v := by
  simp only [bc, Option.bind_some] at h
  split at h
  · exact List.mem_of_getElem? h
  · exact List.mem_of_getElem? h

theorem selectIndices_ret {size k : Nat} {cs : List (SC F)} {idx : List Nat}
    (h : selectIndices size k cs = .ret idx) (j : Nat) (c : SC F) (hj : cs[j]? = some c) (b : Bool)
    (hb : c.val = .b b) : idx[j]? = some (if b then k + j else k + j + size) := by
  induction cs generalizing k idx j with
  | nil => simp at hj
  | cons a as ih =>
    simp only [selectIndices, bind_ret, ret_inj] at h
    obtain ⟨n, hn, ns, hns, rfl⟩ := h
    cases j with
    | zero =>
      simp at hj; subst hj
      simp only [List.getElem?_cons_zero, Option.some.injEq]
      unfold selectIndex at hn
      split at hn <;> (try simp only [ret_inj] at hn)
      · rename_i bb; cases bb <;> simp [SC.val] at hb; subst hb; simp [hn]
      · simp [SC.val] at hb; subst hb; simp [hn]
      · cases hn
    | succ j =>
      simp only [List.getElem?_cons_succ] at hj ⊢
      rw [ih hns j hj]; congr 1; split <;> omega

theorem redundantSelect_refines (hv : VecOk env) (hop : d.op = .select)
    (h : redundantSelect env d = .ret new) : Refines env d new := by
  simp only [redundantSelect, bind_ret, Env.constAt, Inst.arg, at?_ret, ret_inj] at h
  obtain ⟨x, hx, y, hy, _, ⟨c, hcx, rfl⟩, h⟩ := h
  have base : ∀ op (as : List (Ref F)), (∀ ρ, Consistent env ρ → ∀ i, i < d.ty.n → ∀ b u v,
      d.args = [c, x, y] →
      bc (ρ c) i = some (.b b) → ln (ρ x) i = some u → ln (ρ y) i = some v →
      (ρ x).map List.length = some d.ty.n → (ρ y).map List.length = some d.ty.n →
      ((ρ c).map List.length = some 1 ∨ (ρ c).map List.length = some d.ty.n) →
      raw op d.ty (as.map (Ref.val ρ [])) i = .ok (if b then u else v)) → Refines env d ⟨[], op, as⟩ := by
    intro op as hf
    apply refines0
    intro ρ hc i hi hu
    obtain ⟨s, hs, ht⟩ := self_ok (by rw [hop]; rfl) hu
    rw [hs]; rw [hop] at hs
    obtain ⟨c', p, q, b, u, v, hl, hcl, hp, hq, rfl, _, _, l1, l2, l3⟩ := inv_select hs
    simp [hl] at hx hy hcx; subst hx; subst hy; subst hcx
    exact hf ρ hc i hi b u v hl hcl hp hq l1 l2 l3
  split at h
  · rename_i hxy; simp only [beq_iff_eq] at hxy; subst hxy
    simp only [to_ret] at h; subst h
    apply base
    intro ρ hc i hi b u v hl hb hu hv' _ _ _
    rw [hu] at hv'; injection hv' with hv'; subst hv'
    simp [raw, Ref.val, hu]
  · split at h
    · cases h
    · rename_i k hk
      have key : ∀ ρ, Consistent env ρ → ∀ i b, bc (ρ c) i = some (.b b) → k.val = .b b := by
        intro ρ hc i b hb
        obtain ⟨v, hv'⟩ := bc_some hb
        have := hc.consts c v _ hv' hk; subst this
        rw [hv'] at hb
        have := bc_mem hb
        simp [Const.lanes] at this; exact this.symm
      split at h
      · simp only [to_ret] at h; subst h
        apply base
        intro ρ hc i hi b u v hl hb hu hv' _ _ _
        have := key ρ hc i b hb
        simp [SC.val] at this; subst this
        simp [raw, Ref.val, hv']
      · rename_i bv
        simp only [to_ret] at h; subst h
        apply base
        intro ρ hc i hi b u v hl hb hu hv' _ _ _
        have := key ρ hc i b hb
        simp [SC.val] at this; subst this
        cases bv <;> simp [raw, Ref.val, hv', hu]
      · cases h
    · rename_i bb n hk
      simp only [to_ret] at h; subst h
      apply base
      intro ρ hc i hi b u v hl hb hu hv' _ _ _
      obtain ⟨w, hw⟩ := bc_some hb
      have := hc.consts c w _ hw hk; subst this
      rw [hw] at hb
      have := bc_mem hb
      simp [Const.lanes] at this
      have hb0 : b = false := by
        cases bb <;> simp [SC.val] at this; exact this.2
      subst hb0
      simp [raw, Ref.val, hv']
    · rename_i bb cs hk
      simp only [bind_ret, to_ret] at h
      obtain ⟨idx, hidx, rfl⟩ := h
      apply base
      intro ρ hc i hi b u v hl hb hu hv' lx ly lc
      obtain ⟨w, hw⟩ := bc_some hb
      have := hc.consts c w _ hw hk; subst this
      have hlen : cs.length = d.ty.n := by
        rw [hw] at lc; simp [Const.lanes] at lc
        have := (hv c bb cs hk).1
        omega
      have hsz := (hv c bb cs hk).2
      have hln := bc_ln hb (by rw [hw]; simp [Const.lanes]; have := (hv c bb cs hk).1; omega)
      rw [hw] at hln
      simp only [ln_some', Const.lanes, List.getElem?_map, Option.map_eq_some_iff] at hln
      obtain ⟨sc, hsc, hval⟩ := hln
      have hidx' := selectIndices_ret hidx i sc hsc b hval
      obtain ⟨vx, hvx, hxi⟩ := ln_some.1 hu
      obtain ⟨vy, hvy, hyi⟩ := ln_some.1 hv'
      rw [hvx] at lx; rw [hvy] at ly
      simp at lx ly
      simp only [List.map_cons, List.map_nil, Ref.val, hvx, hvy, raw, hidx']
      cases b
      · simp only [Bool.false_eq_true, if_false]
        rw [if_neg (by omega), List.getElem?_append_right (by omega),
          show 0 + i + cs.length - vx.length = i by omega, hyi]
      · simp only [if_true]
        rw [if_neg (by omega), List.getElem?_append_left (by omega), show 0 + i = i by omega, hxi]

theorem constantBooleanSelect_refines (hop : d.op = .select)
    (h : constantBooleanSelect env d = .ret new) : Refines env d new := by
  simp only [constantBooleanSelect, bind_ret, Env.constAt, Inst.arg, at?_ret, ret_inj, some?_ret,
    need_ret, beq_iff_eq] at h
  obtain ⟨_, ⟨x, hx, rfl⟩, c1, h1, _, ⟨y, hy, rfl⟩, c2, h2, c, hcx, _, hty, t, ht1, f, hf1, h⟩ := h
  have base : ∀ op (as : List (Ref F)), (∀ ρ, Consistent env ρ → ∀ i, i < d.ty.n → ∀ b,
      ln (ρ c) i = some (.b b) →
      raw op d.ty (as.map (Ref.val ρ [])) i = .ok (.b (if b then t else f))) → Refines env d ⟨[], op, as⟩ := by
    intro op as hf
    apply refines0
    intro ρ hc i hi hu
    obtain ⟨s, hs, ht⟩ := self_ok (by rw [hop]; rfl) hu
    rw [hs]; rw [hop] at hs
    obtain ⟨c', p, q, b, u, v, hl, hcl, hp, hq, rfl, tu, tv, l1, l2, l3⟩ := inv_select hs
    simp [hl] at hx hy hcx; subst hx; subst hy; subst hcx
    have hln : ln (ρ c') i = some (.b b) := by
      apply bc_ln hcl
      intro hlen
      obtain ⟨v, hv⟩ := bc_some hcl
      rw [hv] at hlen
      have := (hc.defs c' v hv).1
      rw [← hty] at this; simp at hlen; omega
    have hbase : d.ty.base = .bool := by
      have := allows_hasTy (hc.def_lane hln).2
      rw [hty]; exact b_hasTy this
    rw [hbase] at tu tv
    obtain ⟨u, rfl⟩ := hasTy_bool tu
    obtain ⟨v, rfl⟩ := hasTy_bool tv
    have := Const.boolKind_b ht1 (hc.const_lane hp h1); subst this
    have := Const.boolKind_b hf1 (hc.const_lane hq h2); subst this
    rw [hf ρ hc i hi b hln]
    cases b <;> rfl
  split at h
  · rename_i hh; simp at hh; obtain ⟨rfl, rfl⟩ := hh
    simp only [to_ret] at h; subst h
    apply base
    intro ρ hc i hi b hb
    cases b <;> simp [raw, Ref.val, hb]
  · split at h
    · rename_i hh; simp at hh; obtain ⟨rfl, rfl⟩ := hh
      simp only [to_ret] at h; subst h
      apply base
      intro ρ hc i hi b hb
      cases b <;> simp [raw, Ref.val, hb, b1]
    · cases h

end Verif.Rules
