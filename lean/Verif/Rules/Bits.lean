import Verif.Rules.Arith

set_option linter.unusedSimpArgs false
set_option linter.unusedVariables false
set_option linter.unusedSectionVars false

/-! # The rules for bitwise instructions, shifts, and zero and one as operands -/
namespace Verif.Rules

/-! ## Bits -/

/-- The least significant set bit. -/
theorem lsb_eq {w : Nat} (b : BitVec w) (h : b ≠ 0#w) :
    ∃ k, k < w ∧ lsb b = BitVec.twoPow w k ∧ ∀ j, j < k → b.getLsbD j = false := by
  have hex : ∃ k, b.getLsbD k = true := by
    apply Classical.byContradiction
    intro hn
    apply h
    apply BitVec.eq_of_getLsbD_eq
    intro i hi
    simp only [BitVec.getLsbD_zero]
    cases hb : b.getLsbD i
    · rfl
    · exact absurd ⟨i, hb⟩ hn
  have hmin : ∃ k, b.getLsbD k = true ∧ ∀ j, j < k → b.getLsbD j = false := by
    obtain ⟨k, hk⟩ := hex
    induction k using Nat.strongRecOn with
    | _ k ih =>
      by_cases hj : ∃ j, j < k ∧ b.getLsbD j = true
      · obtain ⟨j, hj, hb⟩ := hj; exact ih j hj hb
      · refine ⟨k, hk, fun j hjk => ?_⟩
        cases hb : b.getLsbD j
        · rfl
        · exact absurd ⟨j, hjk, hb⟩ hj
  obtain ⟨k, hk, hlow⟩ := hmin
  have hkw : k < w := by
    rcases Nat.lt_or_ge k w with h' | h'
    · exact h'
    · rw [BitVec.getLsbD_of_ge b k h'] at hk; cases hk
  refine ⟨k, hkw, ?_, hlow⟩
  apply BitVec.eq_of_getLsbD_eq
  intro i hi
  have : lsb b = b &&& -b := by
    unfold lsb; congr 1; rw [BitVec.neg_eq_not_add]; rfl
  rw [this, BitVec.getLsbD_and, BitVec.getLsbD_neg, BitVec.getLsbD_twoPow]
  by_cases hik : i = k
  · subst hik
    have : ¬ ∃ j, j < i ∧ b.getLsbD j = true := by
      rintro ⟨j, hj, hb⟩; rw [hlow j hj] at hb; cases hb
    simp [hi, hk, this]
  · rcases Nat.lt_or_gt_of_ne hik with h' | h'
    · rw [hlow i h']; simp; omega
    · have : ∃ j, j < i ∧ b.getLsbD j = true := ⟨k, h', hk⟩
      simp [hi, this]; omega

theorem and_low {w k : Nat} (x y c : BitVec w) (hk : k < w) (hc : c.toNat < 2 ^ k)
    (h : x.setWidth k = y.setWidth k) : x &&& c = y &&& c := by
  apply BitVec.eq_of_getLsbD_eq
  intro i hi
  rw [BitVec.getLsbD_and, BitVec.getLsbD_and]
  by_cases hik : i < k
  · have := congrArg (·.getLsbD i) h
    simp [BitVec.getLsbD_setWidth, hik] at this
    rw [this]
  · have : c.getLsbD i = false := by
      rw [BitVec.getLsbD, Nat.testBit_lt_two_pow]
      exact Nat.lt_of_lt_of_le hc (Nat.pow_le_pow_right (by omega) (by omega))
    simp [this]

theorem setWidth_zero_of_low {w k : Nat} (b : BitVec w) (hb : ∀ j, j < k → b.getLsbD j = false) :
    b.setWidth k = 0#k := by
  apply BitVec.eq_of_getLsbD_eq
  intro i hi
  simp [BitVec.getLsbD_setWidth, hi, hb i hi]

theorem and_add_lsb {w : Nat} (x c b : BitVec w) (h : c.ult (lsb b) = true) :
    (x + b) &&& c = x &&& c := by
  by_cases hb : b = 0#w
  · subst hb; simp
  · obtain ⟨k, hk, hl, hlow⟩ := lsb_eq b hb
    rw [hl, BitVec.ult] at h
    have h : c.toNat < 2 ^ k := by
      have := of_decide_eq_true h
      rw [BitVec.toNat_twoPow, Nat.mod_eq_of_lt (Nat.pow_lt_pow_right (by omega) hk)] at this
      exact this
    apply and_low _ _ _ hk h
    rw [BitVec.setWidth_add _ _ (by omega), setWidth_zero_of_low b hlow]; simp

theorem and_sub_lsb {w : Nat} (x c b : BitVec w) (h : c.ult (lsb b) = true) :
    (x - b) &&& c = x &&& c := by
  have := and_add_lsb (x - b) c b h
  rw [BitVec.sub_add_cancel] at this
  exact this.symm

theorem shl_and_zero {w s : Nat} (x m : BitVec w) (h : (m.toNat % 2 ^ w) >>> s % 2 ^ w = 0) :
    (x <<< s) &&& m = 0#w := by
  have hm : m.toNat < 2 ^ s := by
    rw [Nat.mod_eq_of_lt m.isLt, Nat.shiftRight_eq_div_pow, Nat.mod_eq_of_lt
      (Nat.lt_of_le_of_lt (Nat.div_le_self _ _) m.isLt)] at h
    rcases Nat.div_eq_zero_iff.1 h with h | h
    · exact absurd h (by have := Nat.two_pow_pos s; omega)
    · exact h
  apply BitVec.eq_of_getLsbD_eq
  intro i hi
  rw [BitVec.getLsbD_and, BitVec.getLsbD_shiftLeft]
  by_cases his : i < s
  · simp [his]
  · have : m.getLsbD i = false := by
      rw [BitVec.getLsbD, Nat.testBit_lt_two_pow]
      exact Nat.lt_of_lt_of_le hm (Nat.pow_le_pow_right (by omega) (by omega))
    simp [this]

theorem shr_and_zero {w s : Nat} (x m : BitVec w) (hw : w ≤ 64)
    (h : (m.toNat % 2 ^ w) <<< s % 2 ^ 64 % 2 ^ w = 0) :
    (x >>> s) &&& m = 0#w := by
  apply BitVec.eq_of_getLsbD_eq
  intro i hi
  rw [BitVec.getLsbD_and, BitVec.getLsbD_ushiftRight]
  by_cases his : s + i < w
  · have : m.getLsbD i = false := by
      have h1 := congrArg (fun n => n.testBit (s + i)) h
      simp only [Nat.testBit_mod_two_pow, Nat.testBit_shiftLeft, Nat.zero_testBit] at h1
      have e1 : s + i < 64 := by omega
      simp [his, e1, hi] at h1
      exact h1
    simp [this]
  · have : x.getLsbD (s + i) = false := BitVec.getLsbD_of_ge x _ (by omega)
    simp [this]

variable {F : Type} [FloatSem F] [DecidableEq F] {env : Env F} {d : Inst} {new : New F}

local macro "fin" "[" ts:Lean.Parser.Tactic.simpLemma,* "]" : tactic =>
  `(tactic| ((try simp [Le, raw, Ref.val, f2, f1, i1, $ts,*]) <;> grind))

/-- A copy or a bitcast of an integer of the right width. -/
theorem copyOrCast {ρ : Id → Option (Val F)} {ty : Ty} {b : Bool} {x : Id} {i w : Nat} {v u : BitVec w}
    (hx : ln (ρ x) i = some (.i w v)) (ht : SV.hasTy (F := F) ty.base (.i w u) = true) :
    raw (if b then .copy else .bitcast) ty ([Ref.id x].map (Ref.val (F := F) ρ [])) i = .ok (.i w v) := by
  have : ∃ s, ty.base = .int w s := by
    unfold SV.hasTy at ht; cases hb : ty.base <;> simp_all
  obtain ⟨s, hs⟩ := this
  cases b <;> simp [raw, Ref.val, hx, hs]

theorem redundantRhs0_refines
    (hop : d.op ∈ [Op.or, .xor, .shr, .sar, .shl, .iadd, .isub])
    (h : redundantRhs0 env d = .ret new) : Refines env d new := by
  simp only [redundantRhs0, zeroOperand, bind_ret, need_ret, Inst.arg, at?_ret, Env.constAt, to_ret,
    some?_ret, ret_inj] at h
  obtain ⟨_, ⟨y, hy, rfl⟩, c, hcc, _, hz, x, hx, rfl⟩ := h
  apply refines0
  intro ρ hc i hi hu
  have hu' := check_ne_ub hu
  simp only [List.mem_cons, List.not_mem_nil, or_false] at hop
  have typed : ∀ {s}, raw d.op d.ty (d.args.map ρ) i = .ok s → s.hasTy d.ty.base = true := by
    intro s hs
    simp only [lane, hs, R.check] at hu
    split at hu
    · assumption
    · exact absurd rfl hu
  have shift : ∀ {w : Nat} {a : BitVec w} {w' : Nat} {b : BitVec w'} {p q : Id} {v : BitVec w},
      d.args = [p, q] → ln (ρ p) i = some (.i w a) → ln (ρ q) i = some (.i w' b) →
      raw d.op d.ty (d.args.map ρ) i = (if b.toNat < w then .ok (.i w v) else .undef (.i w a)) →
      (b = 0#w' → v = a) →
      Le (raw d.op d.ty (d.args.map ρ) i) (raw (if (d.ty == c.ty) = true then .copy else .bitcast) d.ty
        ([Ref.id x].map (Ref.val ρ [])) i) := by
    intro w a w' b p q v hl ha hb hr hv
    simp [hl] at hx hy; subst hx; subst hy
    have hb0 : b = 0#w' := Const.zero_i hz (hc.const_lane hb hcc)
    have hva := hv hb0
    clear hv
    subst hb0; subst hva
    have ht : SV.hasTy (F := F) d.ty.base (.i w v) = true := by
      by_cases h0 : (0#w').toNat < w
      · rw [if_pos h0] at hr; exact typed hr
      · rw [if_neg h0] at hr
        simp only [lane, hr, R.check] at hu
        split at hu
        · assumption
        · exact absurd rfl hu
    rw [copyOrCast ha ht, hr]
    by_cases h0 : (0#w').toNat < w
    · rw [if_pos h0]; rfl
    · rw [if_neg h0]; exact ⟨_, .inl rfl, fun _ => rfl⟩
  rcases hop with hop | hop | hop | hop | hop | hop | hop
  · obtain ⟨s, hs, ht⟩ := self_ok (by rw [hop]; rfl) hu
    rw [hs]; rw [hop] at hs
    obtain ⟨p, q, w, a, b, hl, ha, hb, rfl⟩ := inv_or hs
    simp [hl] at hx hy; subst hx; subst hy
    have := Const.zero_i hz (hc.const_lane hb hcc); subst this
    rw [copyOrCast ha ht]; simp [Le]
  · obtain ⟨s, hs, ht⟩ := self_ok (by rw [hop]; rfl) hu
    rw [hs]; rw [hop] at hs
    obtain ⟨p, q, w, a, b, hl, ha, hb, rfl⟩ := inv_xor hs
    simp [hl] at hx hy; subst hx; subst hy
    have := Const.zero_i hz (hc.const_lane hb hcc); subst this
    rw [copyOrCast ha ht]; simp [Le]
  · rw [hop] at hu'
    obtain ⟨p, q, w, a, w', b, hl, ha, hb, hr⟩ := inv_shr hu'
    rw [← hop] at hr
    exact shift hl ha hb hr (by rintro rfl; simp)
  · rw [hop] at hu'
    obtain ⟨p, q, w, a, w', b, hl, ha, hb, hr⟩ := inv_sar hu'
    rw [← hop] at hr
    exact shift hl ha hb hr (by rintro rfl; simp)
  · rw [hop] at hu'
    obtain ⟨p, q, w, a, w', b, hl, ha, hb, hr⟩ := inv_shl hu'
    rw [← hop] at hr
    exact shift hl ha hb hr (by rintro rfl; simp)
  · obtain ⟨s, hs, ht⟩ := self_ok (by rw [hop]; rfl) hu
    rw [hs]; rw [hop] at hs
    obtain ⟨p, q, w, a, b, hl, ha, hb, rfl⟩ := inv_iadd hs
    simp [hl] at hx hy; subst hx; subst hy
    have := Const.zero_i hz (hc.const_lane hb hcc); subst this
    rw [copyOrCast ha ht]; simp [Le]
  · obtain ⟨s, hs, ht⟩ := self_ok (by rw [hop]; rfl) hu
    rw [hs]; rw [hop] at hs
    obtain ⟨p, q, w, a, b, hl, ha, hb, rfl⟩ := inv_isub hs
    simp [hl] at hx hy; subst hx; subst hy
    have := Const.zero_i hz (hc.const_lane hb hcc); subst this
    rw [copyOrCast ha ht]; simp [Le]

theorem redundantLhs0_refines (hop : d.op = .or ∨ d.op = .xor ∨ d.op = .iadd)
    (h : redundantLhs0 env d = .ret new) : Refines env d new := by
  simp only [redundantLhs0, zeroOperand, bind_ret, need_ret, Inst.arg, at?_ret, Env.constAt, to_ret,
    some?_ret, ret_inj] at h
  obtain ⟨_, ⟨y, hy, rfl⟩, c, hcc, _, hz, x, hx, rfl⟩ := h
  apply refines0
  intro ρ hc i hi hu
  obtain ⟨s, hs, ht⟩ := self_ok (by rcases hop with h | h | h <;> rw [h] <;> rfl) hu
  rw [hs]
  rcases hop with hop | hop | hop <;> rw [hop] at hs
  · obtain ⟨p, q, w, a, b, hl, ha, hb, rfl⟩ := inv_or hs
    simp [hl] at hx hy; subst hx; subst hy
    have := Const.zero_i hz (hc.const_lane ha hcc); subst this
    rw [copyOrCast hb ht]; simp [Le]
  · obtain ⟨p, q, w, a, b, hl, ha, hb, rfl⟩ := inv_xor hs
    simp [hl] at hx hy; subst hx; subst hy
    have := Const.zero_i hz (hc.const_lane ha hcc); subst this
    rw [copyOrCast hb ht]; simp [Le]
  · obtain ⟨p, q, w, a, b, hl, ha, hb, rfl⟩ := inv_iadd hs
    simp [hl] at hx hy; subst hx; subst hy
    have := Const.zero_i hz (hc.const_lane ha hcc); subst this
    rw [copyOrCast hb ht]; simp [Le]

theorem redundantLhs0To0_refines
    (hop : d.op ∈ [Op.shr, .sar, .shl, .sdiv, .udiv, .smod, .umod])
    (h : redundantLhs0To0 env d = .ret new) : Refines env d new := by
  simp only [redundantLhs0To0, zeroOperand, bind_ret, need_ret, Inst.arg, at?_ret, Env.constAt, to_ret,
    some?_ret, ret_inj] at h
  obtain ⟨_, ⟨y, hy, rfl⟩, c, hcc, _, hz, x, hx, rfl⟩ := h
  apply refines0
  intro ρ hc i hi hu
  have hu' := check_ne_ub hu
  simp only [List.mem_cons, List.not_mem_nil, or_false] at hop
  have typed : ∀ {s}, raw d.op d.ty (d.args.map ρ) i = .ok s → s.hasTy d.ty.base = true := by
    intro s hs
    simp only [lane, hs, R.check] at hu
    split at hu
    · assumption
    · exact absurd rfl hu
  have shift : ∀ {w : Nat} {a : BitVec w} {w' : Nat} {b : BitVec w'} {p q : Id} {v : BitVec w},
      d.args = [p, q] → ln (ρ p) i = some (.i w a) →
      raw d.op d.ty (d.args.map ρ) i = (if b.toNat < w then .ok (.i w v) else .undef (.i w a)) →
      (a = 0#w → v = a) →
      Le (raw d.op d.ty (d.args.map ρ) i) (raw (if (d.ty == c.ty) = true then .copy else .bitcast) d.ty
        ([Ref.id x].map (Ref.val ρ [])) i) := by
    intro w a w' b p q v hl ha hr hv
    simp [hl] at hx hy; subst hx; subst hy
    have hv := hv (Const.zero_i hz (hc.const_lane ha hcc))
    subst hv
    have ht : SV.hasTy (F := F) d.ty.base (.i w v) = true := by
      by_cases h0 : b.toNat < w
      · rw [if_pos h0] at hr; exact typed hr
      · rw [if_neg h0] at hr
        simp only [lane, hr, R.check] at hu
        split at hu
        · assumption
        · exact absurd rfl hu
    rw [copyOrCast ha ht, hr]
    by_cases h0 : b.toNat < w
    · rw [if_pos h0]; rfl
    · rw [if_neg h0]; exact ⟨_, .inl rfl, fun _ => rfl⟩
  rcases hop with hop | hop | hop | hop | hop | hop | hop
  · rw [hop] at hu'
    obtain ⟨p, q, w, a, w', b, hl, ha, hb, hr⟩ := inv_shr hu'
    rw [← hop] at hr
    exact shift hl ha hr (by rintro rfl; simp)
  · rw [hop] at hu'
    obtain ⟨p, q, w, a, w', b, hl, ha, hb, hr⟩ := inv_sar hu'
    rw [← hop] at hr
    exact shift hl ha hr (by rintro rfl; simp)
  · rw [hop] at hu'
    obtain ⟨p, q, w, a, w', b, hl, ha, hb, hr⟩ := inv_shl hu'
    rw [← hop] at hr
    exact shift hl ha hr (by rintro rfl; simp)
  · obtain ⟨s, hs, ht⟩ := self_ok (by rw [hop]; rfl) hu
    rw [hs]; rw [hop] at hs
    obtain ⟨p, q, w, a, b, hl, ha, hb, _, rfl⟩ := inv_sdiv hs
    simp [hl] at hx hy; subst hx; subst hy
    have := Const.zero_i hz (hc.const_lane ha hcc); subst this
    rw [copyOrCast ha ht]; simp [Le]
  · obtain ⟨s, hs, ht⟩ := self_ok (by rw [hop]; rfl) hu
    rw [hs]; rw [hop] at hs
    obtain ⟨p, q, w, a, b, hl, ha, hb, _, rfl⟩ := inv_udiv hs
    simp [hl] at hx hy; subst hx; subst hy
    have := Const.zero_i hz (hc.const_lane ha hcc); subst this
    rw [copyOrCast ha ht]; simp [Le]
  · obtain ⟨s, hs, ht⟩ := self_ok (by rw [hop]; rfl) hu
    rw [hs]; rw [hop] at hs
    obtain ⟨p, q, w, a, b, hl, ha, hb, _, rfl⟩ := inv_smod hs
    simp [hl] at hx hy; subst hx; subst hy
    have := Const.zero_i hz (hc.const_lane ha hcc); subst this
    rw [copyOrCast ha ht]; simp [Le]
  · obtain ⟨s, hs, ht⟩ := self_ok (by rw [hop]; rfl) hu
    rw [hs]; rw [hop] at hs
    obtain ⟨p, q, w, a, b, hl, ha, hb, _, rfl⟩ := inv_umod hs
    simp [hl] at hx hy; subst hx; subst hy
    have := Const.zero_i hz (hc.const_lane ha hcc); subst this
    rw [copyOrCast ha ht]; simp [Le]

theorem reassociateCommutative_refines (hop : d.op = .or ∨ d.op = .xor ∨ d.op = .and)
    (h : reassociateCommutative env d = .ret new) : Refines env d new := by
  simp only [reassociateCommutative, bind_ret, some?_ret, need_ret, to_ret, beq_iff_eq] at h
  obtain ⟨_, _, _, _, _, h1, c1, rfl, y, hy, _, he, _, h2, c2, rfl, x, hx, m, hm, rfl⟩ := h
  apply refines0
  intro ρ hc i hi hu
  obtain ⟨s, hs, ht⟩ := self_ok (by rcases hop with h | h | h <;> rw [h] <;> rfl) hu
  rw [hs]
  rcases hop with hop | hop | hop <;> rw [hop] at hs hm he ⊢
  · obtain ⟨w, a, b, ha, hb, rfl⟩ := view_or hc hs h1 hy
    obtain ⟨w', a', b', ha', hb', h⟩ := view_or hc (hc.def' ha he rfl) h2 hx; cases h
    obtain ⟨z, hz, hf⟩ := perform_i hm hb hb'
    simp [IOp] at hf; subst hf
    simp [Le, raw, Ref.val, ha', hz]; ac_rfl
  · obtain ⟨w, a, b, ha, hb, rfl⟩ := view_xor hc hs h1 hy
    obtain ⟨w', a', b', ha', hb', h⟩ := view_xor hc (hc.def' ha he rfl) h2 hx; cases h
    obtain ⟨z, hz, hf⟩ := perform_i hm hb hb'
    simp [IOp] at hf; subst hf
    simp [Le, raw, Ref.val, ha', hz]; ac_rfl
  · obtain ⟨w, a, b, ha, hb, rfl⟩ := view_and hc hs h1 hy
    obtain ⟨w', a', b', ha', hb', h⟩ := view_and hc (hc.def' ha he rfl) h2 hx; cases h
    obtain ⟨z, hz, hf⟩ := perform_i hm hb hb'
    simp [IOp] at hf; subst hf
    simp [Le, raw, Ref.val, ha', hz]; ac_rfl

theorem redundantDiv_refines (hop : d.op = .sdiv ∨ d.op = .udiv)
    (h : redundantDiv env d = .ret new) : Refines env d new := by
  simp only [redundantDiv, bind_ret, need_ret, Inst.arg, at?_ret, Env.constAt, to_ret,
    some?_ret, ret_inj] at h
  obtain ⟨_, ⟨y, hy, rfl⟩, c, hcc, _, hz, x, hx, rfl⟩ := h
  apply refines0
  intro ρ hc i hi hu
  obtain ⟨s, hs, ht⟩ := self_ok (by rcases hop with h | h <;> rw [h] <;> rfl) hu
  rw [hs]
  rcases hop with hop | hop <;> rw [hop] at hs
  · obtain ⟨p, q, w, a, b, hl, ha, hb, _, rfl⟩ := inv_sdiv hs
    simp [hl] at hx hy; subst hx; subst hy
    have := isInt1_i hz (hc.const_lane hb hcc); subst this
    rw [copyOrCast ha ht]; simp [Le]
  · obtain ⟨p, q, w, a, b, hl, ha, hb, _, rfl⟩ := inv_udiv hs
    simp [hl] at hx hy; subst hx; subst hy
    have := isInt1_i hz (hc.const_lane hb hcc); subst this
    rw [copyOrCast ha ht]; simp [Le]

theorem nullOf_i {ty : Ty} {i w : Nat} {u : BitVec w} (hi : i < ty.n)
    (ht : SV.hasTy (F := F) ty.base (.i w u) = true) :
    (nullOf (F := F) ty).lanes[i]? = some (.i w 0#w) := by
  have : ∃ s, ty.base = .int w s := by
    unfold SV.hasTy at ht; cases hb : ty.base <;> simp_all
  obtain ⟨s, hs⟩ := this
  rw [nullOf_lane hi, hs]; rfl

theorem smod_one {w : Nat} (a : BitVec w) (h : sdivUB a 1#w = false) : a.smod 1#w = 0#w := by
  rcases Nat.lt_or_ge 1 w with hw | hw
  · apply BitVec.eq_of_toInt_eq
    rw [BitVec.toInt_smod]
    have : (1#w).toInt = 1 := by
      rw [BitVec.toInt_one]; omega
    rw [this]; simp
  · have : w = 0 ∨ w = 1 := by omega
    rcases this with rfl | rfl
    · exact Subsingleton.elim _ _
    · revert h; revert a; decide

theorem redundantMod_refines (hop : d.op = .smod ∨ d.op = .umod)
    (h : redundantMod env d = .ret new) : Refines env d new := by
  simp only [redundantMod, bind_ret, need_ret, Inst.arg, at?_ret, Env.constAt, to_ret,
    some?_ret, ret_inj] at h
  obtain ⟨_, ⟨y, hy, rfl⟩, c, hcc, _, hz, rfl⟩ := h
  apply refines0
  intro ρ hc i hi hu
  obtain ⟨s, hs, ht⟩ := self_ok (by rcases hop with h | h <;> rw [h] <;> rfl) hu
  rw [hs]
  rcases hop with hop | hop <;> rw [hop] at hs
  · obtain ⟨p, q, w, a, b, hl, ha, hb, hub, rfl⟩ := inv_smod hs
    simp [hl] at hy; subst hy
    have := isInt1_i hz (hc.const_lane hb hcc); subst this
    simp [Le, raw, Ref.val, nullOf_i hi ht, smod_one a (by simpa using hub)]
  · obtain ⟨p, q, w, a, b, hl, ha, hb, _, rfl⟩ := inv_umod hs
    simp [hl] at hy; subst hy
    have := isInt1_i hz (hc.const_lane hb hcc); subst this
    simp [Le, raw, Ref.val, nullOf_i hi ht]

theorem and_or_sub {w : Nat} (x c b : BitVec w) (h : c &&& b = c) : (x ||| b) &&& c = c := by
  rw [← h]
  apply BitVec.eq_of_getLsbD_eq
  intro i hi
  simp only [BitVec.getLsbD_and, BitVec.getLsbD_or]
  cases x.getLsbD i <;> cases b.getLsbD i <;> cases c.getLsbD i <;> rfl

theorem and_or_disjoint {w : Nat} (x c b : BitVec w) (h : c &&& b = 0#w) : (x ||| b) &&& c = x &&& c := by
  apply BitVec.eq_of_getLsbD_eq
  intro i hi
  have := congrArg (·.getLsbD i) h
  simp only [BitVec.getLsbD_and, BitVec.getLsbD_zero] at this
  simp only [BitVec.getLsbD_and, BitVec.getLsbD_or]
  revert this
  cases x.getLsbD i <;> cases b.getLsbD i <;> cases c.getLsbD i <;> simp

theorem and_xor_disjoint {w : Nat} (x c b : BitVec w) (h : c &&& b = 0#w) : (x ^^^ b) &&& c = x &&& c := by
  apply BitVec.eq_of_getLsbD_eq
  intro i hi
  have := congrArg (·.getLsbD i) h
  simp only [BitVec.getLsbD_and, BitVec.getLsbD_zero] at this
  simp only [BitVec.getLsbD_and, BitVec.getLsbD_xor]
  revert this
  cases x.getLsbD i <;> cases b.getLsbD i <;> cases c.getLsbD i <;> simp

theorem redundantAndOrXor_refines (hop : d.op = .and) (h : redundantAndOrXor env d = .ret new) :
    Refines env d new := by
  simp only [redundantAndOrXor, bind_ret, need_ret, some?_ret, Bool.or_eq_true, beq_iff_eq] at h
  obtain ⟨_, _, _, h1, c1, rfl, y, hy, _, he, _, h2, c2, rfl, sub, hsub, dis, hdis, h⟩ := h
  split at h
  · rename_i hb
    simp at hb h; obtain ⟨heo, rfl⟩ := hb; subst h
    apply refines0
    intro ρ hc i hi hu
    obtain ⟨s, hs, ht⟩ := self_ok (by rw [hop]; rfl) hu
    rw [hs]; rw [hop] at hs
    obtain ⟨w, a, b, ha, hb, rfl⟩ := view_and hc hs h1 hy
    obtain ⟨p', q', w', a', b', hl', ha', hb', h⟩ := inv_or (hc.def' ha heo rfl); cases h
    rcases pos hc hl' h2 ha' hb' with ⟨_, hcl, _⟩ | ⟨_, hcl, _⟩
    · have := allPairs_i hsub hb hcl; simp at this
      have e := and_or_sub b' b a' this
      rw [BitVec.or_comm] at e
      simp [Le, raw, Ref.val, hb, e]
    · have := allPairs_i hsub hb hcl; simp at this
      have e := and_or_sub a' b b' this
      simp [Le, raw, Ref.val, hb, e]
  · simp only [bind_ret, need_ret, to_ret] at h
    obtain ⟨_, rfl, x, hx, rfl⟩ := h
    apply refines0
    intro ρ hc i hi hu
    obtain ⟨s, hs, ht⟩ := self_ok (by rw [hop]; rfl) hu
    rw [hs]; rw [hop] at hs ⊢
    obtain ⟨w, a, b, ha, hb, rfl⟩ := view_and hc hs h1 hy
    rcases he with he | he
    · obtain ⟨w', a', b', ha', hb', h⟩ := view_or hc (hc.def' ha he rfl) h2 hx; cases h
      have := allPairs_i hdis hb hb'; simp at this
      simp [Le, raw, Ref.val, hb, ha', and_or_disjoint a' b b' this]
    · obtain ⟨w', a', b', ha', hb', h⟩ := view_xor hc (hc.def' ha he rfl) h2 hx; cases h
      have := allPairs_i hdis hb hb'; simp at this
      simp [Le, raw, Ref.val, hb, ha', and_xor_disjoint a' b b' this]

theorem redundantAndAddSub_refines (hop : d.op = .and) (h : redundantAndAddSub env d = .ret new) :
    Refines env d new := by
  simp only [redundantAndAddSub, bind_ret, need_ret, some?_ret, Bool.or_eq_true, beq_iff_eq, to_ret,
    Env.constAt, Inst.arg, at?_ret, ret_inj] at h
  obtain ⟨_, _, _, h1, c1, rfl, y, hy, _, he, _, h2, c2, rfl, _, ⟨p0, hp0, rfl⟩, _, hns, _, hok, _, rfl,
    x, hx, rfl⟩ := h
  apply refines0
  intro ρ hc i hi hu
  obtain ⟨s, hs, ht⟩ := self_ok (by rw [hop]; rfl) hu
  rw [hs]; rw [hop] at hs ⊢
  obtain ⟨w, a, b, ha, hb, rfl⟩ := view_and hc hs h1 hy
  rcases he with he | he
  · obtain ⟨w', a', b', ha', hb', h⟩ := view_iadd hc (hc.def' ha he rfl) h2 hx; cases h
    have := allPairs_i hok hb hb'
    simp [Le, raw, Ref.val, hb, ha', and_add_lsb a' b b' this]
  · obtain ⟨p', q', w', a', b', hl', ha', hb', h⟩ := inv_isub (hc.def' ha he rfl); cases h
    simp [hl'] at hp0; subst hp0
    have hx := nonConst_ret hl' hx
    rcases pos hc hl' h2 ha' hb' with ⟨h0, hcl, _⟩ | ⟨h0, hcl, _⟩
    · simp [he, h0] at hns
    · simp [h0] at hx; subst hx
      have := allPairs_i hok hb hcl
      simp [Le, raw, Ref.val, hb, ha', and_sub_lsb a' b b' this]

theorem value_i {c : SC F} {w : Nat} {v : BitVec w} (h : c.val = .i w v) : c.value = some v.toNat := by
  unfold SC.val at h; split at h <;> first
    | (injection h with h1 h2; subst h1; cases h2; simp [SC.value]; done)
    | cases h

theorem canFold_i {w : Nat} {right : Bool} {m s : SC F} (h : canFoldShift w right m s = true)
    {a : BitVec w} (ha : m.val = .i w a) {w' : Nat} {b : BitVec w'} (hb : s.val = .i w' b) :
    b.toNat < w ∧ (right = true → (a.toNat % 2 ^ w) <<< b.toNat % 2 ^ 64 % 2 ^ w = 0) ∧
      (right = false → (a.toNat % 2 ^ w) >>> b.toNat % 2 ^ w = 0) := by
  simp only [canFoldShift, value_i ha, value_i hb] at h
  split at h
  · cases h
  · refine ⟨by omega, ?_, ?_⟩
    · rintro rfl; simpa using h
    · rintro rfl; simpa using h

theorem components_lane {c : Const F} {l : List (SC F)} (h : c.components = .ret l) {i : Nat} :
    c.lanes[i]? = l[i]?.map SC.val := by
  cases c with
  | sc c => simp [Const.components] at h
  | vec b cs => simp only [Const.components, ret_inj] at h; subst h; simp [Const.lanes]
  | nullv b n =>
    simp only [Const.components, ret_inj] at h; subst h
    simp only [Const.lanes, List.getElem?_replicate]
    split <;> simp

theorem redundantAndShift_refines (hop : d.op = .and) (h : redundantAndShift env d = .ret new) :
    Refines env d new := by
  simp only [redundantAndShift, bind_ret, need_ret, some?_ret, Bool.or_eq_true, beq_iff_eq,
    Env.constAt, Inst.arg, at?_ret, ret_inj] at h
  obtain ⟨width, hwd, _, hw, _, h1, c1, rfl, y, hy, _, he, _, _, _, hn0, _, ⟨p1, hp1, rfl⟩, c2, hc2, h⟩ := h
  have key : new = ⟨[], .copy, [.c (nullOf d.ty)]⟩ ∧ ∀ i, i < d.ty.n → ∀ s t, c1.lanes[i]? = some s →
      c2.lanes[i]? = some t → ∃ m u : SC F, m.val = s ∧ u.val = t ∧
        canFoldShift width ((env.get y).op == .shr) m u = true := by
    split at h
    · rename_i n hn
      simp only [bind_ret, need_ret, to_ret] at h
      obtain ⟨_, _, ms, hms, ss, hss, oks, hoks, _, hall, rfl⟩ := h
      refine ⟨rfl, fun i hi s t hs ht => ?_⟩
      have hi' : i < n := by simpa [Ty.n, hn] using hi
      obtain ⟨r, hr, hf⟩ := (each_ret hoks).2 i i (by simp [hi'])
      simp only [bind_ret, at?_ret, ret_inj] at hf
      obtain ⟨m, hm, u, hu, rfl⟩ := hf
      rw [components_lane hms, hm] at hs
      rw [components_lane hss, hu] at ht
      refine ⟨m, u, by simpa using hs, by simpa using ht, ?_⟩
      exact List.all_eq_true.1 hall _ (List.mem_of_getElem? hr)
    · rename_i hn
      split at h
      · rename_i m u
        simp only [bind_ret, need_ret, to_ret] at h
        obtain ⟨_, hcan, rfl⟩ := h
        refine ⟨rfl, fun i hi s t hs ht => ?_⟩
        have hi' : i = 0 := by simpa [Ty.n, hn] using hi
        subst hi'
        simp only [Const.lanes, List.getElem?_cons_zero, Option.some.injEq] at hs ht
        exact ⟨m, u, hs, ht, hcan⟩
      · cases h
  obtain ⟨rfl, key⟩ := key
  apply refines0
  intro ρ hc i hi hu
  obtain ⟨s, hs, ht⟩ := self_ok (by rw [hop]; rfl) hu
  rw [hs]; rw [hop] at hs
  obtain ⟨w, a, b, ha, hb, rfl⟩ := view_and hc hs h1 hy
  have hwid : width = w := by
    unfold Ty.elementWidth at hwd
    unfold SV.hasTy at ht
    cases hbb : d.ty.base <;> simp [hbb, ret_inj] at hwd ht
    omega
  subst hwid
  have hlane := hc.def_lane ha
  have hraw := allows_raw hlane.2
  have hle : width ≤ 64 := by omega
  rcases he with he | he
  · rw [he] at hraw
    have hne : raw .shl (env.get y).ty ((env.get y).args.map ρ) i ≠ .ub := by
      rcases hraw with h | h | ⟨_, h⟩ <;> simp [h]
    obtain ⟨p, q, w1, a', w', b', hl, ha', hb', hr⟩ := inv_shl hne
    simp [hl] at hp1; subst hp1
    obtain ⟨m, u, hm, hu', hcan⟩ := key i hi _ _ hb (hc.const_lane hb' hc2)
    have := canFold_i hcan hm hu'
    simp [he] at this
    -- the shifted operand has the same width as the result
    have hw1 : w1 = width := by
      have h2 := hlane.2
      rw [he] at h2
      simp only [lane, hr] at h2
      split at h2
      · simp only [R.check] at h2
        split at h2
        · simp only [R.allows] at h2; cases h2; rfl
        · exact h2.elim
      · simp only [R.check] at h2
        split at h2
        · rename_i hh; simp only [R.allows] at h2
          unfold SV.hasTy at hh h2
          cases hbb : (env.get y).ty.base <;> simp [hbb] at hh h2
          omega
        · exact h2.elim
    subst hw1
    rw [if_pos this.1] at hr
    rw [hr] at hraw
    rcases hraw with h | h | ⟨_, h⟩ <;> cases h
    simp [Le, raw, Ref.val, nullOf_i hi ht, shl_and_zero a' b (by simpa using this.2)]
  · rw [he] at hraw
    have hne : raw .shr (env.get y).ty ((env.get y).args.map ρ) i ≠ .ub := by
      rcases hraw with h | h | ⟨_, h⟩ <;> simp [h]
    obtain ⟨p, q, w1, a', w', b', hl, ha', hb', hr⟩ := inv_shr hne
    simp [hl] at hp1; subst hp1
    obtain ⟨m, u, hm, hu', hcan⟩ := key i hi _ _ hb (hc.const_lane hb' hc2)
    have := canFold_i hcan hm hu'
    simp [he] at this
    have hw1 : w1 = width := by
      have h2 := hlane.2
      rw [he] at h2
      simp only [lane, hr] at h2
      split at h2
      · simp only [R.check] at h2
        split at h2
        · simp only [R.allows] at h2; cases h2; rfl
        · exact h2.elim
      · simp only [R.check] at h2
        split at h2
        · rename_i hh; simp only [R.allows] at h2
          unfold SV.hasTy at hh h2
          cases hbb : (env.get y).ty.base <;> simp [hbb] at hh h2
          omega
        · exact h2.elim
    subst hw1
    rw [if_pos this.1] at hr
    rw [hr] at hraw
    rcases hraw with h | h | ⟨_, h⟩ <;> cases h
    simp [Le, raw, Ref.val, nullOf_i hi ht, shr_and_zero a' b hle (by simpa using this.2)]

end Verif.Rules
