import Verif.Rules.Arith

set_option linter.unusedSimpArgs false
set_option linter.unusedVariables false
set_option linter.unusedSectionVars false

/-! # The rules for division -/
namespace Verif.Rules
variable {F : Type} [FloatSem F] [DecidableEq F] {env : Env F} {d : Inst} {new : New F}

local macro "fin" "[" ts:Lean.Parser.Tactic.simpLemma,* "]" : tactic =>
  `(tactic| ((try simp [Le, raw, Ref.val, f2, f1, i1, $ts,*]) <;> grind))

theorem reciprocalFDiv_refines (hop : d.op = .fdiv) (h : reciprocalFDiv env d = .ret new) :
    Refines env d new := by
  simp only [reciprocalFDiv, bind_ret, need_ret, Env.constAt, Inst.arg, at?_ret, ret_inj] at h
  obtain ⟨_, _, _, _, _, ⟨y, hy, rfl⟩, h⟩ := h
  have key : ∃ k r x, env.const y = some k ∧ d.args[0]? = some x ∧ new = ⟨[], .fmul, [.id x, .c r]⟩ ∧
      ∀ (i : Nat) s, k.lanes[i]? = some s → ∃ v, s = .f v ∧ v ≠ 0 ∧ r.lanes[i]? = some (.f (1 / v)) := by
    split at h
    · rename_i b cs hk
      simp only [bind_ret, at?_ret, to_ret] at h
      obtain ⟨rs, hrs, x, hx, rfl⟩ := h
      refine ⟨_, _, x, hk, hx, rfl, fun i s hs => ?_⟩
      simp only [Const.lanes, List.getElem?_map, Option.map_eq_some_iff] at hs
      obtain ⟨a, ha, rfl⟩ := hs
      obtain ⟨r, hr, hf⟩ := (each_ret hrs).2 i a ha
      obtain ⟨v, hv, h0, hr'⟩ := rcpS_val hf
      exact ⟨v, hv, h0, by simp [Const.lanes, hr, hr']⟩
    · rename_i w v hk
      simp only [bind_ret, at?_ret, to_ret] at h
      obtain ⟨r, hr, x, hx, rfl⟩ := h
      refine ⟨_, _, x, hk, hx, rfl, fun i s hs => ?_⟩
      obtain ⟨v', hv', h0, hr'⟩ := rcpS_val hr
      rcases i with _ | i <;> simp [Const.lanes] at hs
      exact ⟨v', by rw [← hs, hv'], h0, by simp [Const.lanes, hr']⟩
    · cases h
  obtain ⟨k, r, x, hk, hx, rfl, hr⟩ := key
  apply refines0
  intro ρ hc i hi hu
  obtain ⟨s, hs, ht⟩ := self_ok (by rw [hop]; rfl) hu
  rw [hs]; rw [hop] at hs
  obtain ⟨p, q, a, b, hl, ha, hb, h0, rfl⟩ := inv_fdiv hs
  simp [hl] at hx hy; subst hx; subst hy
  obtain ⟨v, hv, _, hl'⟩ := hr i _ (hc.const_lane hb hk)
  cases hv
  fin [ha, hl']

/-- An operand of a multiplication and the other one. -/
theorem mulDivCancel_refines (hop : d.op = .fmul) {k : Nat} (hk : k = 0 ∨ k = 1)
    (h : mulDivCancel env d k = .ret new) : Refines env d new := by
  simp only [mulDivCancel, bind_ret, need_ret, Inst.arg, at?_ret, to_ret, beq_iff_eq] at h
  obtain ⟨x, hx, _, he, y, hy, z, hz, _, rfl, u, hu', rfl⟩ := h
  apply refines0
  intro ρ hc i hi hu
  obtain ⟨s, hs, ht⟩ := self_ok (by rw [hop]; rfl) hu
  rw [hs]; rw [hop] at hs
  obtain ⟨p, q, a, b, hl, ha, hb, rfl⟩ := inv_fmul hs
  rcases hk with rfl | rfl <;> simp [hl] at hx hz <;> subst hx <;> subst hz
  · obtain ⟨p', q', a', b', hl', ha', hb', h0, h⟩ := inv_fdiv (hc.def' ha he rfl); cases h
    simp [hl'] at hy hu'; subst hy; subst hu'
    rw [hb] at hb'; cases hb'
    fin [ha']
  · obtain ⟨p', q', a', b', hl', ha', hb', h0, h⟩ := inv_fdiv (hc.def' hb he rfl); cases h
    simp [hl'] at hy hu'; subst hy; subst hu'
    rw [ha] at hb'; cases hb'
    fin [ha']

theorem mulDivConst_refines (hop : d.op = .fmul) (h : mulDivConst env d = .ret new) :
    Refines env d new := by
  simp only [mulDivConst, bind_ret, need_ret, Inst.arg, at?_ret, to_ret, beq_iff_eq, some?_ret,
    Env.constAt, ret_inj] at h
  obtain ⟨_, h1, c1, rfl, y, hy, _, _, _, he, _, h2, c2, rfl, _, hz, _, ⟨p0, hp0, rfl⟩, m, hm, x, hx, rfl⟩ := h
  apply refines0
  intro ρ hc i hi hu
  obtain ⟨s, hs, ht⟩ := self_ok (by rw [hop]; rfl) hu
  rw [hs]; rw [hop] at hs
  obtain ⟨a, b, ha, hb, rfl⟩ := view_fmul hc hs h1 hy
  obtain ⟨p', q', a', b', hl', ha', hb', h0, h⟩ := inv_fdiv (hc.def' ha he rfl); cases h
  simp [hl'] at hp0; subst hp0
  rcases pos hc hl' h2 ha' hb' with ⟨h0', hcl, _⟩ | ⟨h0', hcl, _⟩
  · obtain ⟨k, h0'⟩ := Option.isSome_iff_exists.1 h0'
    simp [h0', hl'] at hx hm; subst hx
    rw [hop] at hm
    obtain ⟨z, hz, hf⟩ := perform_f hm hb hcl
    simp [FOp] at hf; subst hf
    fin [h0', he, hz, hb', h0]
  · simp [h0', hl'] at hx hm; subst hx
    rw [he] at hm
    obtain ⟨z, hz, hf⟩ := perform_f hm hb hcl
    simp [FOp] at hf; obtain ⟨_, rfl⟩ := hf
    fin [h0', hop, hz, ha']

theorem mergeMulDiv_refines (hop : d.op = .fmul) (h : mergeMulDiv env d = .ret new) :
    Refines env d new := by
  simp only [mergeMulDiv, bind_ret, orElse_ret] at h
  obtain ⟨_, _, _, _, h | ⟨_, h | ⟨_, h⟩⟩⟩ := h
  · exact mulDivCancel_refines hop (.inl rfl) h
  · exact mulDivCancel_refines hop (.inr rfl) h
  · exact mulDivConst_refines hop h

theorem mergeDivDiv_refines (hop : d.op = .fdiv) (h : mergeDivDiv env d = .ret new) :
    Refines env d new := by
  simp only [mergeDivDiv, bind_ret, need_ret, Inst.arg, at?_ret, to_ret, beq_iff_eq, some?_ret,
    Env.constAt, ret_inj] at h
  obtain ⟨_, _, _, _, _, h1, c1, rfl, _, hz1, y, hy, _, _, _, ⟨p0, hp0, rfl⟩, _, he, _, h2, c2, rfl,
    _, hz2, _, ⟨q0, hq0, rfl⟩, m, hm, x, hx, rfl⟩ := h
  simp at hz1 hz2
  apply refines0
  intro ρ hc i hi hu
  obtain ⟨s, hs, ht⟩ := self_ok (by rw [hop]; rfl) hu
  rw [hs]; rw [hop] at hs he hm ⊢
  obtain ⟨p, q, a, b, hl, ha, hb, h0, rfl⟩ := inv_fdiv hs
  simp [hl] at hp0; subst hp0
  rcases constPair hl h1 hy with ⟨rfl, hp⟩ | ⟨rfl, hp, hp'⟩
  · obtain ⟨u, v, a', b', hl', ha', hb', h0', h⟩ := inv_fdiv (hc.def' hb he rfl); cases h
    simp [hl'] at hq0; subst hq0
    have hcl := hc.const_lane ha hp
    rcases pos hc hl' h2 ha' hb' with ⟨hq, hcl', _⟩ | ⟨hq, hcl', _⟩
    · obtain ⟨k, hq⟩ := Option.isSome_iff_exists.1 hq
      have := Const.nonzero_f hz2 hcl'
      simp [hp, hq, hl'] at hx hm; subst hx
      obtain ⟨z, hz, hf⟩ := perform_f hm hcl hcl'
      simp [FOp] at hf; obtain ⟨_, rfl⟩ := hf
      fin [hp, hq, hz, hb']
    · have := Const.nonzero_f hz2 hcl'
      simp [hp, hq, hl'] at hx hm; subst hx
      obtain ⟨z, hz, hf⟩ := perform_f hm hcl hcl'
      simp [FOp] at hf; subst hf
      have : a' ≠ 0 := by grind
      fin [hp, hq, hz, ha', this]
  · obtain ⟨u, v, a', b', hl', ha', hb', h0', h⟩ := inv_fdiv (hc.def' ha he rfl); cases h
    simp [hl'] at hq0; subst hq0
    have hcl := hc.const_lane hb hp
    rcases pos hc hl' h2 ha' hb' with ⟨hq, hcl', _⟩ | ⟨hq, hcl', _⟩
    · obtain ⟨k, hq⟩ := Option.isSome_iff_exists.1 hq
      simp [hp', hq, hl'] at hx hm; subst hx
      obtain ⟨z, hz, hf⟩ := perform_f hm hcl' hcl
      simp [FOp] at hf; obtain ⟨_, rfl⟩ := hf
      fin [hp', hq, hz, hb', h0']
    · simp [hp', hq, hl'] at hx hm; subst hx
      obtain ⟨z, hz, hf⟩ := perform_f hm hcl' hcl
      simp [FOp] at hf; subst hf
      have : b' * b ≠ 0 := by grind
      fin [hp', hq, hz, ha', this]

theorem divMulCancel_refines (hop : d.op = .fdiv) {k : Nat} (hk : k = 0 ∨ k = 1)
    (h : divMulCancel env d k = .ret new) : Refines env d new := by
  simp only [divMulCancel, bind_ret, need_ret, Inst.arg, at?_ret, to_ret, beq_iff_eq] at h
  obtain ⟨x, hx, _, he, y, hy, z, hz, _, rfl, u, hu', rfl⟩ := h
  apply refines0
  intro ρ hc i hi hu
  obtain ⟨s, hs, ht⟩ := self_ok (by rw [hop]; rfl) hu
  rw [hs]; rw [hop] at hs
  obtain ⟨p, q, a, b, hl, ha, hb, h0, rfl⟩ := inv_fdiv hs
  simp [hl] at hx hz; subst hx; subst hz
  obtain ⟨p', q', a', b', hl', ha', hb', h⟩ := inv_fmul (hc.def' ha he rfl); cases h
  rcases hk with rfl | rfl <;> simp [hl'] at hy hu' <;> subst hy <;> subst hu'
  · rw [hb] at ha'; cases ha'
    fin [hb']
  · rw [hb] at hb'; cases hb'
    fin [ha']

theorem divMulConst_refines (hop : d.op = .fdiv) (h : divMulConst env d = .ret new) :
    Refines env d new := by
  simp only [divMulConst, bind_ret, need_ret, Inst.arg, at?_ret, to_ret, beq_iff_eq, some?_ret,
    Env.constAt, ret_inj] at h
  obtain ⟨_, h1, c1, rfl, _, hz1, y, hy, _, _, _, ⟨p0, hp0, rfl⟩, _, he, _, h2, c2, rfl, m, hm, x, hx, rfl⟩ := h
  apply refines0
  intro ρ hc i hi hu
  obtain ⟨s, hs, ht⟩ := self_ok (by rw [hop]; rfl) hu
  rw [hs]; rw [hop] at hs hm ⊢
  obtain ⟨p, q, a, b, hl, ha, hb, h0, rfl⟩ := inv_fdiv hs
  simp [hl] at hp0; subst hp0
  rcases constPair hl h1 hy with ⟨rfl, hp⟩ | ⟨rfl, hp, hp'⟩
  · obtain ⟨a', b', ha', hb', h⟩ := view_fmul hc (hc.def' hb he rfl) h2 hx; cases h
    have hcl := hc.const_lane ha hp
    simp [hp] at hm
    obtain ⟨z, hz, hf⟩ := perform_f hm hcl hb'
    simp [FOp] at hf; obtain ⟨_, rfl⟩ := hf
    have : a' ≠ 0 := by grind
    fin [hp, hz, ha', this]
  · obtain ⟨a', b', ha', hb', h⟩ := view_fmul hc (hc.def' ha he rfl) h2 hx; cases h
    have hcl := hc.const_lane hb hp
    simp [hp'] at hm
    obtain ⟨z, hz, hf⟩ := perform_f hm hb' hcl
    simp [FOp] at hf; obtain ⟨_, rfl⟩ := hf
    fin [hp', hz, ha', he]

theorem mergeDivMul_refines (hop : d.op = .fdiv) (h : mergeDivMul env d = .ret new) :
    Refines env d new := by
  simp only [mergeDivMul, bind_ret, orElse_ret] at h
  obtain ⟨_, _, _, _, h | ⟨_, h | ⟨_, h⟩⟩⟩ := h
  · exact divMulCancel_refines hop (.inl rfl) h
  · exact divMulCancel_refines hop (.inr rfl) h
  · exact divMulConst_refines hop h

theorem mergeDivNegate_refines (hop : d.op = .fdiv) (h : mergeDivNegate env d = .ret new) :
    Refines env d new := by
  simp only [mergeDivNegate, bind_ret, need_ret, Inst.arg, at?_ret, to_ret, beq_iff_eq, some?_ret,
    Env.constAt, ret_inj] at h
  obtain ⟨_, _, _, h1, c1, rfl, y, hy, _, _, _, ⟨p0, hp0, rfl⟩, _, he, m, hm, x, hx, rfl⟩ := h
  apply refines0
  intro ρ hc i hi hu
  obtain ⟨s, hs, ht⟩ := self_ok (by rw [hop]; rfl) hu
  rw [hs]; rw [hop] at hs ⊢
  obtain ⟨p, q, a, b, hl, ha, hb, h0, rfl⟩ := inv_fdiv hs
  simp [hl] at hp0; subst hp0
  rcases constPair hl h1 hy with ⟨rfl, hp⟩ | ⟨rfl, hp, hp'⟩
  · obtain ⟨u, a', hl', ha', h⟩ := inv_fneg (hc.def' hb he rfl); cases h
    simp [hl'] at hx; subst hx
    have := negate_f hm (hc.const_lane ha hp)
    have h0 : a' ≠ 0 := by grind
    fin [hp, this, ha', h0]
  · obtain ⟨u, a', hl', ha', h⟩ := inv_fneg (hc.def' ha he rfl); cases h
    simp [hl'] at hx; subst hx
    have := negate_f hm (hc.const_lane hb hp)
    have h0 : -b ≠ 0 := by grind
    fin [hp', this, ha', h0]

theorem mergeNegateMulDiv_refines (hop : d.op = .fneg ∨ d.op = .sneg)
    (hsd : ∀ x, d.args = [x] → d.op = .sneg → (env.get x).op = .sdiv → NegDivSafe env (env.get x))
    (h : mergeNegateMulDiv env d = .ret new) : Refines env d new := by
  simp only [mergeNegateMulDiv, bind_ret, need_ret, Inst.arg, at?_ret, beq_iff_eq, some?_ret,
    Env.constAt, ret_inj, Bool.or_eq_true] at h
  obtain ⟨_, _, y, hy, _, _, _, _, _, he, _, ⟨p0, hp0, rfl⟩, _, h1, c, rfl, m, hm, x, hx, h⟩ := h
  have key : new = ⟨[], (env.get y).op, if (env.get y).op = .fdiv ∨ (env.get y).op = .sdiv then
      (if (env.const p0).isNone then [.id x, .c m] else [.c m, .id x]) else [.id x, .c m]⟩ := by
    split at h <;> rename_i hh
    · rw [if_pos hh]; simpa using h
    · rw [if_neg hh]; simpa using h
  subst key
  apply refines0
  intro ρ hc i hi hu
  obtain ⟨s, hs, ht⟩ := self_ok (by rcases hop with h | h <;> rw [h] <;> rfl) hu
  rw [hs]
  rcases hop with hop | hop <;> rw [hop] at hs
  · obtain ⟨p, a, hl, ha, rfl⟩ := inv_fneg hs
    simp [hl] at hy; subst hy
    rcases he with ((he | he) | he) | he
    · obtain ⟨u, v, a', b', hl', ha', hb', h⟩ := inv_fmul (hc.def' ha he rfl); cases h
      simp [hl'] at hp0; subst hp0
      rcases pos hc hl' h1 ha' hb' with ⟨h0, hcl, _⟩ | ⟨h0, hcl, _⟩
      · have := negate_f hm hcl
        obtain ⟨k, h0⟩ := Option.isSome_iff_exists.1 h0
        simp [h0, hl'] at hx; subst hx
        fin [h0, he, this, hb']
      · have := negate_f hm hcl
        simp [h0, hl'] at hx; subst hx
        fin [h0, he, this, ha']
    · obtain ⟨u, v, a', b', hl', ha', hb', hb0, h⟩ := inv_fdiv (hc.def' ha he rfl); cases h
      simp [hl'] at hp0; subst hp0
      rcases pos hc hl' h1 ha' hb' with ⟨h0, hcl, _⟩ | ⟨h0, hcl, _⟩
      · have := negate_f hm hcl
        obtain ⟨k, h0⟩ := Option.isSome_iff_exists.1 h0
        simp [h0, hl'] at hx; subst hx
        fin [h0, he, this, hb', hb0]
      · have := negate_f hm hcl
        simp [h0, hl'] at hx; subst hx
        have hn : -b' ≠ 0 := by grind
        fin [h0, he, this, ha', hn]
    · obtain ⟨_, _, _, _, _, _, _, _, h⟩ := inv_imul (hc.def' ha he rfl); cases h
    · obtain ⟨_, _, _, _, _, _, _, _, _, h⟩ := inv_sdiv (hc.def' ha he rfl); cases h
  · obtain ⟨p, w, a, hl, ha, rfl⟩ := inv_sneg hs
    simp [hl] at hy; subst hy
    rcases he with ((he | he) | he) | he
    · obtain ⟨_, _, _, _, _, _, _, h⟩ := inv_fmul (hc.def' ha he rfl); cases h
    · obtain ⟨_, _, _, _, _, _, _, _, h⟩ := inv_fdiv (hc.def' ha he rfl); cases h
    · obtain ⟨u, v, w', a', b', hl', ha', hb', h⟩ := inv_imul (hc.def' ha he rfl); cases h
      simp [hl'] at hp0; subst hp0
      rcases pos hc hl' h1 ha' hb' with ⟨h0, hcl, _⟩ | ⟨h0, hcl, _⟩
      · have := negate_i hm hcl
        obtain ⟨k, h0⟩ := Option.isSome_iff_exists.1 h0
        simp [h0, hl'] at hx; subst hx
        fin [h0, he, this, hb']
      · have := negate_i hm hcl
        simp [h0, hl'] at hx; subst hx
        fin [h0, he, this, ha']
    · have hsafe := hsd p hl hop he
      obtain ⟨u, v, w', a', b', hl', ha', hb', hub, h⟩ := inv_sdiv (hc.def' ha he rfl); cases h
      simp [hl'] at hp0; subst hp0
      obtain ⟨hs1, hs2⟩ := hsafe _ _ hl'
      simp only [sdivUB, Bool.or_eq_true, beq_iff_eq, Bool.and_eq_true, not_or, not_and] at hub
      rcases pos hc hl' h1 ha' hb' with ⟨h0, hcl, hk⟩ | ⟨h0, hcl, hk⟩
      · have hneg := negate_i hm hcl
        have hmin := hs1 c hk i w a' hcl
        simp [hk, hl'] at hx; subst hx
        have hub' : sdivUB (-a') b' = false := by
          simp only [sdivUB, Bool.or_eq_false_iff, beq_eq_false_iff_ne, ne_eq, Bool.and_eq_false_iff]
          refine ⟨hub.1, .inl fun h => hmin ?_⟩
          rw [← BitVec.neg_neg (x := a'), h, BitVec.neg_intMin]
        simp [Le, raw, Ref.val, hk, he, hneg, hb', hub', BitVec.neg_sdiv hmin]
      · have hneg := negate_i hm hcl
        obtain ⟨hmin, hone⟩ := hs2 c h0 hk i w b' hcl
        simp [h0, hl'] at hx; subst hx
        have hub' : sdivUB a' (-b') = false := by
          simp only [sdivUB, Bool.or_eq_false_iff, beq_eq_false_iff_ne, ne_eq, Bool.and_eq_false_iff]
          refine ⟨fun h => hub.1 ?_, .inr fun h => hone ?_⟩
          · rw [← BitVec.neg_neg (x := b'), h, BitVec.neg_zero]
          · rw [← BitVec.neg_neg (x := b'), h, ← BitVec.neg_one_eq_allOnes, BitVec.neg_neg]
        simp [Le, raw, Ref.val, h0, he, hneg, ha', hub', BitVec.sdiv_neg hmin]

/-- Double negation of a signed quotient, in executions where the dividend is never the smallest
integer. -/
theorem sdivDoubleNegative_right (hop : d.op = .sdiv) (h : mergeDoubleNegative env d = .ret new)
    {ρ : Id → Option (Val F)} (hc : Consistent env ρ)
    (hmin : ∀ l x, d.args[0]? = some l → (env.get l).op = .sneg → (env.get l).args[0]? = some x →
      ∀ i w, ln (ρ x) i ≠ some (.i w (BitVec.intMin w))) : RightAt ρ d new := by
  simp only [mergeDoubleNegative, bind_ret, need_ret, to_ret, Bool.and_eq_true, Inst.arg, at?_ret] at h
  obtain ⟨_, _, l, hl, r, hr, _, ⟨h1, h2⟩, x, hx, y, hy, rfl⟩ := h
  apply rightAt0
  intro i hi hu
  obtain ⟨s, hs, ht⟩ := self_ok (by rw [hop]; rfl) hu
  rw [hs]; rw [hop] at hs ⊢
  obtain ⟨p, q, w, a, b, hd, ha, hb, hub, rfl⟩ := inv_sdiv hs
  have hm := hmin l x hl
  simp [hd] at hl hr; subst hl; subst hr
  have hneg : (env.get p).op = .sneg := by
    simp only [Inst.foldableNegation, Bool.or_eq_true, beq_iff_eq, Bool.and_eq_true] at h1
    rcases h1 with h1 | ⟨h1, _⟩
    · exact h1
    · obtain ⟨_, _, _, _, h⟩ := inv_fneg (hc.def' ha h1 rfl); cases h
  have hm := hm hneg hx i w
  obtain ⟨a', ha', rfl⟩ := foldableNegation_i hc h1 ha hx
  obtain ⟨b', hb', rfl⟩ := foldableNegation_i hc h2 hb hy
  have hm' : a' ≠ BitVec.intMin w := fun h => hm (by rw [ha', h])
  simp only [sdivUB, Bool.or_eq_true, beq_iff_eq, Bool.and_eq_true, not_or, not_and] at hub
  have hub' : sdivUB a' b' = false := by
    simp only [sdivUB, Bool.or_eq_false_iff, beq_eq_false_iff_ne, ne_eq, Bool.and_eq_false_iff]
    refine ⟨fun h => hub.1 ?_, .inl hm'⟩
    rw [h, BitVec.neg_zero]
  simp [Le, raw, Ref.val, ha', hb', hub', BitVec.neg_sdiv_neg hm']

/-- A product or quotient as a product of a constant or its reciprocal and a term or its
reciprocal. -/
theorem scaled {ρ : Id → Option (Val F)} (hc : Consistent env ρ) {x p0 y : Id} {c : Const F}
    {i : Nat} {a : F} (ha : ln (ρ x) i = some (.f a))
    (he : (env.get x).op = .fmul ∨ (env.get x).op = .fdiv)
    (h1 : env.constInput (env.get x) = .ret (some c)) (hp0 : (env.get x).args[0]? = some p0)
    (hy : (env.get x).args[if (env.const p0).isSome then 1 else 0]? = some y) :
    ∃ k u, c.lanes[i]? = some (.f k) ∧ ln (ρ y) i = some (.f u) ∧
      ((if (env.const p0).isSome then (env.get x).op == .fdiv else false) = true → u ≠ 0) ∧
      a = (if (if (env.const p0).isSome then false else (env.get x).op == .fdiv) then 1 / k else k) *
          (if (if (env.const p0).isSome then (env.get x).op == .fdiv else false) then 1 / u else u) := by
  rcases he with he | he
  · obtain ⟨p, q, u, v, hd, hu, hv, h⟩ := inv_fmul (hc.def' ha he rfl); cases h
    simp [hd] at hp0; subst hp0
    rcases pos hc hd h1 hu hv with ⟨h0, hcl, _⟩ | ⟨h0, hcl, _⟩
    · simp [hd, h0] at hy; subst hy
      exact ⟨u, v, hcl, hv, by simp [h0, he], by simp [h0, he]⟩
    · simp [hd, h0] at hy; subst hy
      exact ⟨v, u, hcl, hu, by simp [h0, he], by simp [h0, he]; grind⟩
  · obtain ⟨p, q, u, v, hd, hu, hv, hn, h⟩ := inv_fdiv (hc.def' ha he rfl); cases h
    simp [hd] at hp0; subst hp0
    rcases pos hc hd h1 hu hv with ⟨h0, hcl, _⟩ | ⟨h0, hcl, _⟩
    · simp [hd, h0] at hy; subst hy
      exact ⟨u, v, hcl, hv, by simp [hn], by simp [h0, he]; grind⟩
    · simp [hd, h0] at hy; subst hy
      exact ⟨v, u, hcl, hu, by simp [h0, he], by simp [h0, he]; grind⟩

theorem rcpIf {b : Bool} {c c' : Const F} (h : (if b = true then rcp env.valid c else .ret c) = .ret c')
    {i : Nat} {k : F} (hk : c.lanes[i]? = some (.f k)) :
    c'.lanes[i]? = some (.f (if b then 1 / k else k)) ∧ (b = true → k ≠ 0) := by
  cases b
  · simp [ret_inj] at h; subst h; simpa using hk
  · simp at h
    obtain ⟨x, hx, h0, hl⟩ := rcp_lane h hk
    cases hx
    simpa using ⟨hl, h0⟩

theorem reassociateMulDiv_refines (hop : d.op = .fmul ∨ d.op = .fdiv)
    (h : reassociateMulDiv env d = .ret new) : Refines env d new := by
  simp only [reassociateMulDiv, bind_ret, need_ret, Inst.arg, at?_ret, Env.constAt,
    some?_ret, ret_inj] at h
  obtain ⟨_, _, _, _, _, _, _, _, _, _, _, _, p, hp, q, hq, _, he, _, _, _, h1, cl, rfl, _, h2, cr, rfl,
    _, ⟨p0, hp0, rfl⟩, _, ⟨q0, hq0, rfl⟩, x, hx, y, hy, cl', hcl', cr', hcr', m, hm, _, _, rfl⟩ := h
  simp only [Bool.and_eq_true, Bool.or_eq_true, beq_iff_eq] at he
  apply refines1'
  intro ρ hc i hi hu
  obtain ⟨s, hs, ht⟩ := self_ok (by rcases hop with h | h <;> rw [h] <;> rfl) hu
  rw [hs]
  rcases hop with hop | hop <;> rw [hop] at hs hcr' ⊢
  · obtain ⟨p', q', a, b, hd, ha, hb, rfl⟩ := inv_fmul hs
    simp [hd] at hp hq; subst hp; subst hq
    obtain ⟨k, u, hk, hu, hn, rfl⟩ := scaled hc ha he.1 h1 hp0 hx
    obtain ⟨k', u', hk', hu', hn', rfl⟩ := scaled hc hb he.2 h2 hq0 hy
    generalize (if (env.const p0).isSome then false else (env.get p').op == .fdiv) = cn at *
    generalize (if (env.const p0).isSome then (env.get p').op == .fdiv else false) = xn at *
    generalize (if (env.const q0).isSome then false else (env.get q').op == .fdiv) = cn' at *
    generalize (if (env.const q0).isSome then (env.get q').op == .fdiv else false) = yn at *
    obtain ⟨hk, hkn⟩ := rcpIf hcl' hk
    obtain ⟨hk', hkn'⟩ := rcpIf hcr' hk'
    obtain ⟨z, hz, hf⟩ := perform_f hm hk hk'
    simp [FOp] at hf; subst hf
    refine ⟨.f (if xn && yn then u * u' else if xn then u' / u else if yn then u / u' else u * u'), ?_,
      hasTy_f ht, fun ν _ hν => ?_⟩
    · clear hs ht ha hb hz hk hk' hcl' hcr'
      cases xn <;> cases yn <;> simp at hn hn' <;> simp [raw, Ref.val, f2, hu, hu', hn, hn']
    · clear hs ht ha hb hk hk' hcl' hcr'
      cases xn <;> cases yn <;> simp at hν hz hn hn'
      · fin [hν, hz]
      · fin [hν, hz]
      · fin [hν, hz]
      · have : u * u' ≠ 0 := by grind
        fin [hν, hz, this]
  · obtain ⟨p', q', a, b, hd, ha, hb, hb0, rfl⟩ := inv_fdiv hs
    simp [hd] at hp hq; subst hp; subst hq
    obtain ⟨k, u, hk, hu, hn, rfl⟩ := scaled hc ha he.1 h1 hp0 hx
    obtain ⟨k', u', hk', hu', hn', rfl⟩ := scaled hc hb he.2 h2 hq0 hy
    generalize (if (env.const p0).isSome then false else (env.get p').op == .fdiv) = cn at *
    generalize (if (env.const p0).isSome then (env.get p').op == .fdiv else false) = xn at *
    generalize (if (env.const q0).isSome then false else (env.get q').op == .fdiv) = cn' at *
    generalize (if (env.const q0).isSome then (env.get q').op == .fdiv else false) = yn at *
    simp only [beq_self_eq_true, if_true] at hcr' ⊢
    obtain ⟨hk, hkn⟩ := rcpIf hcl' hk
    obtain ⟨hk', hkn'⟩ := rcpIf hcr' hk'
    obtain ⟨z, hz, hf⟩ := perform_f hm hk hk'
    simp [FOp] at hf; subst hf
    have hu0 : u' ≠ 0 := by
      rintro rfl
      cases yn
      · apply hb0; simp; grind
      · exact hn' rfl rfl
    have hk0 : k' ≠ 0 := by
      rintro rfl
      cases cn'
      · apply hb0; simp; grind
      · apply hb0; simp; grind
    refine ⟨.f (if xn && !yn then u * u' else if xn then u' / u else if !yn then u / u' else u * u'), ?_,
      hasTy_f ht, fun ν _ hν => ?_⟩
    · clear hs ht ha hb hz hk hk' hcl' hcr'
      cases xn <;> cases yn <;> simp at hn hn' <;> simp [raw, Ref.val, f2, hu, hu', hn, hn', hu0]
    · clear hs ht ha hb hk hk' hcl' hcr'
      cases xn <;> cases yn <;> cases cn' <;> simp at hν hz hn hn' hb0 hkn' <;> first
        | (fin [hν, hz]; done)
        | (have : u * u' ≠ 0 := by grind
           fin [hν, hz, this])

/-! ## Neutral and absorbing floating-point operands -/

theorem kind_f {ρ : Id → Option (Val F)} (hc : Consistent env ρ) {x : Id} {i : Nat} {a : F}
    (ha : ln (ρ x) i = some (.f a)) :
    (floatKind (env.const x) = .zero → a = 0) ∧ (floatKind (env.const x) = .one → a = 1) := by
  cases hk : env.const x with
  | none => simp [floatKind]
  | some k => exact floatKind_f rfl (hc.const_lane ha hk)

theorem redundantFAdd_refines (hop : d.op = .fadd) (h : redundantFAdd env d = .ret new) :
    Refines env d new := by
  simp only [redundantFAdd, bind_ret, need_ret, Inst.arg, at?_ret, Env.constAt, to_ret,
    some?_ret, ret_inj] at h
  obtain ⟨_, _, _, ⟨x, hx, rfl⟩, _, ⟨y, hy, rfl⟩, _, hz, z, hzz, rfl⟩ := h
  apply refines0
  intro ρ hc i hi hu
  obtain ⟨s, hs, ht⟩ := self_ok (by rw [hop]; rfl) hu
  rw [hs]; rw [hop] at hs
  obtain ⟨p, q, a, b, hl, ha, hb, rfl⟩ := inv_fadd hs
  simp [hl] at hx hy; subst hx; subst hy
  have h1 := kind_f hc ha
  have h2 := kind_f hc hb
  by_cases h0 : floatKind (env.const p) = .zero
  · simp [h0, hl] at hzz; subst hzz
    have := h1.1 h0; subst this
    fin [hb]
  · simp [h0, hl] at hzz hz; subst hzz
    have := h2.1 hz; subst this
    fin [ha]

theorem redundantFSub_refines (hop : d.op = .fsub) (h : redundantFSub env d = .ret new) :
    Refines env d new := by
  simp only [redundantFSub, bind_ret, need_ret, Inst.arg, at?_ret, Env.constAt,
    some?_ret, ret_inj] at h
  obtain ⟨_, _, _, ⟨x, hx, rfl⟩, _, ⟨y, hy, rfl⟩, h⟩ := h
  by_cases h0 : floatKind (env.const x) = .zero
  · simp [h0] at h
    obtain ⟨z, hz, rfl⟩ := h
    apply refines0
    intro ρ hc i hi hu
    obtain ⟨s, hs, ht⟩ := self_ok (by rw [hop]; rfl) hu
    rw [hs]; rw [hop] at hs
    obtain ⟨p, q, a, b, hl, ha, hb, rfl⟩ := inv_fsub hs
    simp [hl] at hx hy hz; subst hx; subst hy; subst hz
    have := (kind_f hc ha).1 h0; subst this
    fin [hb]
  · by_cases h1 : floatKind (env.const y) = .zero
    · simp [h0, h1] at h
      obtain ⟨z, hz, rfl⟩ := h
      apply refines0
      intro ρ hc i hi hu
      obtain ⟨s, hs, ht⟩ := self_ok (by rw [hop]; rfl) hu
      rw [hs]; rw [hop] at hs
      obtain ⟨p, q, a, b, hl, ha, hb, rfl⟩ := inv_fsub hs
      simp [hl] at hx hy hz; subst hx; subst hy; subst hz
      have := (kind_f hc hb).1 h1; subst this
      fin [ha]
    · simp [h0, h1] at h

theorem redundantFMul_refines (hop : d.op = .fmul) (h : redundantFMul env d = .ret new) :
    Refines env d new := by
  simp only [redundantFMul, bind_ret, need_ret, Inst.arg, at?_ret, Env.constAt,
    some?_ret, ret_inj] at h
  obtain ⟨_, _, _, ⟨x, hx, rfl⟩, _, ⟨y, hy, rfl⟩, h⟩ := h
  have key : ∃ z, new = ⟨[], .copy, [.id z]⟩ ∧
      ((floatKind (env.const x) = .zero ∧ z = x) ∨ (floatKind (env.const y) = .zero ∧ z = y) ∨
       (floatKind (env.const x) = .one ∧ z = y) ∨ (floatKind (env.const y) = .one ∧ z = x)) := by
    by_cases h0 : floatKind (env.const x) = .zero
    · simp [h0, hx] at h; exact ⟨x, h, .inl ⟨h0, rfl⟩⟩
    · by_cases h1 : floatKind (env.const y) = .zero
      · simp [h0, h1, hy] at h; exact ⟨y, h, .inr (.inl ⟨h1, rfl⟩)⟩
      · by_cases h2 : floatKind (env.const x) = .one
        · simp [h1, h2, hy] at h; exact ⟨y, h, .inr (.inr (.inl ⟨h2, rfl⟩))⟩
        · by_cases h3 : floatKind (env.const y) = .one
          · simp [h0, h2, h3, hx] at h; exact ⟨x, h, .inr (.inr (.inr ⟨h3, rfl⟩))⟩
          · simp [h0, h1, h2, h3] at h
  obtain ⟨z, rfl, hz⟩ := key
  apply refines0
  intro ρ hc i hi hu
  obtain ⟨s, hs, ht⟩ := self_ok (by rw [hop]; rfl) hu
  rw [hs]; rw [hop] at hs
  obtain ⟨p, q, a, b, hl, ha, hb, rfl⟩ := inv_fmul hs
  simp [hl] at hx hy; subst hx; subst hy
  have h1 := kind_f hc ha
  have h2 := kind_f hc hb
  rcases hz with ⟨hk, rfl⟩ | ⟨hk, rfl⟩ | ⟨hk, rfl⟩ | ⟨hk, rfl⟩
  · have := h1.1 hk; subst this; fin [ha]
  · have := h2.1 hk; subst this; fin [hb]
  · have := h1.2 hk; subst this; fin [hb]
  · have := h2.2 hk; subst this; fin [ha]

theorem redundantFDiv_refines (hop : d.op = .fdiv) (h : redundantFDiv env d = .ret new) :
    Refines env d new := by
  simp only [redundantFDiv, bind_ret, need_ret, Inst.arg, at?_ret, Env.constAt, to_ret,
    some?_ret, ret_inj, Bool.or_eq_true, beq_iff_eq] at h
  obtain ⟨_, _, _, ⟨x, hx, rfl⟩, _, ⟨y, hy, rfl⟩, _, hz, z, hzz, rfl⟩ := h
  apply refines0
  intro ρ hc i hi hu
  obtain ⟨s, hs, ht⟩ := self_ok (by rw [hop]; rfl) hu
  rw [hs]; rw [hop] at hs
  obtain ⟨p, q, a, b, hl, ha, hb, h0, rfl⟩ := inv_fdiv hs
  simp [hl] at hx hy hzz; subst hx; subst hy; subst hzz
  rcases hz with hk | hk
  · have := (kind_f hc ha).1 hk; subst this; fin [ha]
  · have := (kind_f hc hb).2 hk; subst this; fin [ha]

theorem redundantFMod_refines (hop : d.op = .fmod) (h : redundantFMod env d = .ret new) :
    Refines env d new := by
  simp only [redundantFMod, bind_ret, need_ret, Inst.arg, at?_ret, Env.constAt, to_ret,
    some?_ret, ret_inj, Bool.or_eq_true, beq_iff_eq] at h
  obtain ⟨_, _, _, ⟨x, hx, rfl⟩, _, hz, z, hzz, rfl⟩ := h
  apply refines0
  intro ρ hc i hi hu
  obtain ⟨s, hs, ht⟩ := self_ok (by rw [hop]; rfl) hu
  rw [hs]; rw [hop] at hs
  obtain ⟨p, q, a, b, hl, ha, hb, h0, rfl⟩ := inv_fmod hs
  simp [hl] at hx hzz; subst hx; subst hzz
  have := (kind_f hc ha).1 hz; subst this
  simp [Le, raw, Ref.val, ha, FloatSem.fmod_zero]

theorem redundantFMix_refines (hop : d.op = .fmix) (h : redundantFMix env d = .ret new) :
    Refines env d new := by
  simp only [redundantFMix, bind_ret, need_ret, Inst.arg, at?_ret, Env.constAt, to_ret,
    some?_ret, ret_inj, Bool.or_eq_true, beq_iff_eq] at h
  obtain ⟨_, _, _, ⟨x, hx, rfl⟩, _, hz, z, hzz, rfl⟩ := h
  apply refines0
  intro ρ hc i hi hu
  obtain ⟨s, hs, ht⟩ := self_ok (by rw [hop]; rfl) hu
  rw [hs]; rw [hop] at hs
  obtain ⟨p, q, r, a, b, c, hl, ha, hb, hcc, rfl⟩ := inv_fmix hs
  simp [hl] at hx; subst hx
  rcases hz with hk | hk
  · simp [hk, hl] at hzz; subst hzz
    have := (kind_f hc hcc).1 hk; subst this; fin [ha]
  · simp [hk, hl] at hzz; subst hzz
    have := (kind_f hc hcc).2 hk; subst this; fin [hb]

end Verif.Rules
