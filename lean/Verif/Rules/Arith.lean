import Verif.Rules.Views

set_option linter.unusedSimpArgs false
set_option linter.unusedVariables false
set_option linter.unusedSectionVars false

/-! # The rules for addition, subtraction, negation and multiplication -/
namespace Verif.Rules
variable {F : Type} [FloatSem F] [DecidableEq F] {env : Env F} {d : Inst} {new : New F}

local macro "fin" "[" ts:Lean.Parser.Tactic.simpLemma,* "]" : tactic =>
  `(tactic| ((try simp [Le, raw, Ref.val, f2, f1, i1, $ts,*]) <;> grind))

theorem mergeNegate_refines (hop : d.op = .fneg ∨ d.op = .sneg) (h : mergeNegate env d = .ret new) :
    Refines env d new := by
  simp only [mergeNegate, bind_ret, need_ret, to_ret, beq_iff_eq, Inst.arg, at?_ret] at h
  obtain ⟨_, _, y, hy, _, _, _, he, x, hx, rfl⟩ := h
  apply refines0
  intro ρ hc i hi hu
  obtain ⟨s, hs, ht⟩ := self_ok (by rcases hop with h | h <;> rw [h] <;> rfl) hu
  rw [hs]
  rcases hop with hop | hop <;> rw [hop] at hs he
  · obtain ⟨p, a, hl, ha, rfl⟩ := inv_fneg hs
    simp [hl] at hy; subst hy
    obtain ⟨p', a', hl', ha', h⟩ := inv_fneg (hc.def' ha he rfl); cases h
    simp [hl'] at hx; subst hx
    fin [ha']
  · obtain ⟨p, w, a, hl, ha, rfl⟩ := inv_sneg hs
    simp [hl] at hy; subst hy
    obtain ⟨p', w', a', hl', ha', h⟩ := inv_sneg (hc.def' ha he rfl); cases h
    simp [hl'] at hx; subst hx
    fin [ha']

theorem mergeNegateAddSub_refines (hop : d.op = .fneg ∨ d.op = .sneg)
    (h : mergeNegateAddSub env d = .ret new) : Refines env d new := by
  simp only [mergeNegateAddSub, bind_ret, need_ret, to_ret, beq_iff_eq, Inst.arg, at?_ret, some?_ret,
    Bool.or_eq_true, Env.constAt, ret_inj] at h
  obtain ⟨_, _, y, hy, _, _, _, _, _, he, _, ⟨p0, hp0, rfl⟩, _, h1, c, rfl, x0, hx0, x1, hx1, k, hk, rfl⟩ := h
  apply refines0
  intro ρ hc i hi hu
  obtain ⟨s, hs, ht⟩ := self_ok (by rcases hop with h | h <;> rw [h] <;> rfl) hu
  rw [hs]
  rcases hop with hop | hop <;> rw [hop] at hs
  · obtain ⟨p, a, hl, ha, rfl⟩ := inv_fneg hs
    simp [hl] at hy; subst hy
    rcases he with ((he | he) | he) | he
    · obtain ⟨u, v, a', b', hl', ha', hb', h⟩ := inv_fadd (hc.def' ha he rfl); cases h
      simp [hl'] at hp0 hx0 hx1; subst hp0; subst hx0; subst hx1
      simp only [he, true_or, or_true, if_true, bind_ret, ret_inj] at hk
      obtain ⟨n, hn, rfl⟩ := hk
      rcases pos hc hl' h1 ha' hb' with ⟨h0, hcl, _⟩ | ⟨h0, hcl, _⟩
      · have := negate_f hn hcl
        obtain ⟨k, h0⟩ := Option.isSome_iff_exists.1 h0
        fin [h0, he, this, hb', hasFloat_f ht]
      · have := negate_f hn hcl
        fin [h0, he, this, ha', hasFloat_f ht]
    · obtain ⟨u, v, a', b', hl', ha', hb', h⟩ := inv_fsub (hc.def' ha he rfl); cases h
      simp [hl'] at hp0 hx0 hx1; subst hp0; subst hx0; subst hx1
      simp [he, ret_inj] at hk; subst hk
      rcases pos hc hl' h1 ha' hb' with ⟨h0, hcl, _⟩ | ⟨h0, hcl, _⟩
      · obtain ⟨k, h0⟩ := Option.isSome_iff_exists.1 h0
        fin [h0, he, ha', hb', hasFloat_f ht]
      · fin [h0, he, ha', hb', hasFloat_f ht]
    · obtain ⟨_, _, _, _, _, _, _, _, h⟩ := inv_iadd (hc.def' ha he rfl); cases h
    · obtain ⟨_, _, _, _, _, _, _, _, h⟩ := inv_isub (hc.def' ha he rfl); cases h
  · obtain ⟨p, w, a, hl, ha, rfl⟩ := inv_sneg hs
    simp [hl] at hy; subst hy
    rcases he with ((he | he) | he) | he
    · obtain ⟨_, _, _, _, _, _, _, h⟩ := inv_fadd (hc.def' ha he rfl); cases h
    · obtain ⟨_, _, _, _, _, _, _, h⟩ := inv_fsub (hc.def' ha he rfl); cases h
    · obtain ⟨u, v, w', a', b', hl', ha', hb', h⟩ := inv_iadd (hc.def' ha he rfl); cases h
      simp [hl'] at hp0 hx0 hx1; subst hp0; subst hx0; subst hx1
      simp only [he, true_or, or_true, if_true, bind_ret, ret_inj] at hk
      obtain ⟨n, hn, rfl⟩ := hk
      rcases pos hc hl' h1 ha' hb' with ⟨h0, hcl, _⟩ | ⟨h0, hcl, _⟩
      · have := negate_i hn hcl
        obtain ⟨k, h0⟩ := Option.isSome_iff_exists.1 h0
        fin [h0, he, this, hb', hasFloat_i ht]
      · have := negate_i hn hcl
        fin [h0, he, this, ha', hasFloat_i ht]
    · obtain ⟨u, v, w', a', b', hl', ha', hb', h⟩ := inv_isub (hc.def' ha he rfl); cases h
      simp [hl'] at hp0 hx0 hx1; subst hp0; subst hx0; subst hx1
      simp [he, ret_inj] at hk; subst hk
      rcases pos hc hl' h1 ha' hb' with ⟨h0, hcl, _⟩ | ⟨h0, hcl, _⟩
      · obtain ⟨k, h0⟩ := Option.isSome_iff_exists.1 h0
        fin [h0, he, ha', hb', hasFloat_i ht]
      · fin [h0, he, ha', hb', hasFloat_i ht]

theorem mergeMulMul_refines (hop : d.op = .fmul ∨ d.op = .imul) (h : mergeMulMul env d = .ret new) :
    Refines env d new := by
  simp only [mergeMulMul, bind_ret, some?_ret, need_ret, to_ret, beq_iff_eq] at h
  obtain ⟨_, _, _, _, _, h1, c1, rfl, y, hy, _, _, _, he, _, h2, c2, rfl, m, hm, x, hx, rfl⟩ := h
  apply refines0
  intro ρ hc i hi hu
  obtain ⟨s, hs, ht⟩ := self_ok (by rcases hop with h | h <;> rw [h] <;> rfl) hu
  rw [hs]
  rcases hop with hop | hop <;> rw [hop] at hs hm he ⊢
  · obtain ⟨a, b, ha, hb, rfl⟩ := view_fmul hc hs h1 hy
    obtain ⟨a', b', ha', hb', h⟩ := view_fmul hc (hc.def' ha he rfl) h2 hx; cases h
    obtain ⟨z, hz, hf⟩ := perform_f hm hb hb'
    simp [FOp] at hf; subst hf
    fin [ha', hz]
  · obtain ⟨w, a, b, ha, hb, rfl⟩ := view_imul hc hs h1 hy
    obtain ⟨w', a', b', ha', hb', h⟩ := view_imul hc (hc.def' ha he rfl) h2 hx; cases h
    obtain ⟨z, hz, hf⟩ := perform_i hm hb hb'
    simp [IOp] at hf; subst hf
    fin [ha', hz]

theorem mergeMulNegate_refines (hop : d.op = .fmul ∨ d.op = .imul)
    (h : mergeMulNegate env d = .ret new) : Refines env d new := by
  simp only [mergeMulNegate, bind_ret, some?_ret, need_ret, to_ret, beq_iff_eq, Bool.or_eq_true,
    Inst.arg, at?_ret] at h
  obtain ⟨_, _, _, _, _, h1, c1, rfl, y, hy, _, _, _, he, m, hm, x, hx, rfl⟩ := h
  apply refines0
  intro ρ hc i hi hu
  obtain ⟨s, hs, ht⟩ := self_ok (by rcases hop with h | h <;> rw [h] <;> rfl) hu
  rw [hs]
  rcases hop with hop | hop <;> rw [hop] at hs ⊢
  · obtain ⟨a, b, ha, hb, rfl⟩ := view_fmul hc hs h1 hy
    rcases he with he | he
    · obtain ⟨p, a', hl, ha', h⟩ := inv_fneg (hc.def' ha he rfl); cases h
      simp [hl] at hx; subst hx
      fin [ha', negate_f hm hb]
    · obtain ⟨_, _, _, _, _, h⟩ := inv_sneg (hc.def' ha he rfl); cases h
  · obtain ⟨w, a, b, ha, hb, rfl⟩ := view_imul hc hs h1 hy
    rcases he with he | he
    · obtain ⟨_, _, _, _, h⟩ := inv_fneg (hc.def' ha he rfl); cases h
    · obtain ⟨p, w', a', hl, ha', h⟩ := inv_sneg (hc.def' ha he rfl); cases h
      simp [hl] at hx; subst hx
      fin [ha', negate_i hm hb]

theorem foldableNegation_f {ρ : Id → Option (Val F)} (hc : Consistent env ρ) {x p : Id} {i : Nat} {a : F}
    (h : (env.get x).foldableNegation = true) (hx : ln (ρ x) i = some (.f a))
    (hp : (env.get x).args[0]? = some p) : ∃ b, ln (ρ p) i = some (.f b) ∧ a = -b := by
  simp only [Inst.foldableNegation, Bool.or_eq_true, Bool.and_eq_true, beq_iff_eq] at h
  rcases h with h | ⟨h, _⟩
  · obtain ⟨_, _, _, _, _, h⟩ := inv_sneg (hc.def' hx h rfl); cases h
  · obtain ⟨q, b, hl, hb, h⟩ := inv_fneg (hc.def' hx h rfl); cases h
    simp [hl] at hp; subst hp
    exact ⟨b, hb, rfl⟩

theorem foldableNegation_i {ρ : Id → Option (Val F)} (hc : Consistent env ρ) {x p : Id} {i w : Nat}
    {a : BitVec w}
    (h : (env.get x).foldableNegation = true) (hx : ln (ρ x) i = some (.i w a))
    (hp : (env.get x).args[0]? = some p) : ∃ b, ln (ρ p) i = some (.i w b) ∧ a = -b := by
  simp only [Inst.foldableNegation, Bool.or_eq_true, Bool.and_eq_true, beq_iff_eq] at h
  rcases h with h | ⟨h, _⟩
  · obtain ⟨q, w', b, hl, hb, h⟩ := inv_sneg (hc.def' hx h rfl); cases h
    simp [hl] at hp; subst hp
    exact ⟨b, hb, rfl⟩
  · obtain ⟨_, _, _, _, h⟩ := inv_fneg (hc.def' hx h rfl); cases h

theorem mergeDoubleNegative_refines
    (hop : d.op = .fmul ∨ d.op = .fdiv ∨ d.op = .imul ∨ d.op = .vts)
    (h : mergeDoubleNegative env d = .ret new) : Refines env d new := by
  simp only [mergeDoubleNegative, bind_ret, need_ret, to_ret, Bool.and_eq_true, Inst.arg, at?_ret] at h
  obtain ⟨_, _, l, hl, r, hr, _, ⟨h1, h2⟩, x, hx, y, hy, rfl⟩ := h
  apply refines0
  intro ρ hc i hi hu
  obtain ⟨s, hs, ht⟩ := self_ok (by rcases hop with h | h | h | h <;> rw [h] <;> rfl) hu
  rw [hs]
  rcases hop with hop | hop | hop | hop <;> rw [hop] at hs ⊢
  · obtain ⟨p, q, a, b, hd, ha, hb, rfl⟩ := inv_fmul hs
    simp [hd] at hl hr; subst hl; subst hr
    obtain ⟨a', ha', rfl⟩ := foldableNegation_f hc h1 ha hx
    obtain ⟨b', hb', rfl⟩ := foldableNegation_f hc h2 hb hy
    fin [ha', hb']
  · obtain ⟨p, q, a, b, hd, ha, hb, h0, rfl⟩ := inv_fdiv hs
    simp [hd] at hl hr; subst hl; subst hr
    obtain ⟨a', ha', rfl⟩ := foldableNegation_f hc h1 ha hx
    obtain ⟨b', hb', rfl⟩ := foldableNegation_f hc h2 hb hy
    have : b' ≠ 0 := by grind
    fin [ha', hb', this]
  · obtain ⟨p, q, w, a, b, hd, ha, hb, rfl⟩ := inv_imul hs
    simp [hd] at hl hr; subst hl; subst hr
    obtain ⟨a', ha', rfl⟩ := foldableNegation_i hc h1 ha hx
    obtain ⟨b', hb', rfl⟩ := foldableNegation_i hc h2 hb hy
    fin [ha', hb']
  · obtain ⟨p, q, a, b, hd, ha, hb, rfl⟩ := inv_vts hs
    simp [hd] at hl hr; subst hl; subst hr
    obtain ⟨a', ha', rfl⟩ := foldableNegation_f hc h1 ha hx
    obtain ⟨b', hb', rfl⟩ := foldableNegation_f hc h2 hb hy
    fin [ha', hb']

theorem trySubstitute_refines {x y : Id} (hop : d.op = .fadd ∨ d.op = .iadd)
    (hxy : (d.args[0]? = some x ∧ d.args[1]? = some y) ∨ (d.args[0]? = some y ∧ d.args[1]? = some x))
    (h : trySubstitute env d x y = .ret new) : Refines env d new := by
  simp only [trySubstitute, bind_ret, need_ret, to_ret, Inst.arg, at?_ret] at h
  obtain ⟨_, h1, z, hz, rfl⟩ := h
  apply refines0
  intro ρ hc i hi hu
  obtain ⟨s, hs, ht⟩ := self_ok (by rcases hop with h | h <;> rw [h] <;> rfl) hu
  rw [hs]
  rcases hop with hop | hop <;> rw [hop] at hs
  · obtain ⟨p, q, a, b, hd, ha, hb, rfl⟩ := inv_fadd hs
    simp [hd] at hxy
    rcases hxy with ⟨rfl, rfl⟩ | ⟨rfl, rfl⟩
    · obtain ⟨a', ha', rfl⟩ := foldableNegation_f hc h1 ha hz
      fin [ha', hb, hasFloat_f ht]
    · obtain ⟨a', ha', rfl⟩ := foldableNegation_f hc h1 hb hz
      fin [ha', ha, hasFloat_f ht]
  · obtain ⟨p, q, w, a, b, hd, ha, hb, rfl⟩ := inv_iadd hs
    simp [hd] at hxy
    rcases hxy with ⟨rfl, rfl⟩ | ⟨rfl, rfl⟩
    · obtain ⟨a', ha', rfl⟩ := foldableNegation_i hc h1 ha hz
      fin [ha', hb, hasFloat_i ht]
    · obtain ⟨a', ha', rfl⟩ := foldableNegation_i hc h1 hb hz
      fin [ha', ha, hasFloat_i ht]

theorem mergeAddNegate_refines (hop : d.op = .fadd ∨ d.op = .iadd)
    (h : mergeAddNegate env d = .ret new) : Refines env d new := by
  simp only [mergeAddNegate, bind_ret, Inst.arg, at?_ret, orElse_ret] at h
  obtain ⟨_, _, x, hx, y, hy, h | ⟨_, h⟩⟩ := h
  · exact trySubstitute_refines hop (.inl ⟨hx, hy⟩) h
  · exact trySubstitute_refines hop (.inr ⟨hx, hy⟩) h

theorem mergeSubNegate_refines (hop : d.op = .fsub ∨ d.op = .isub)
    (h : mergeSubNegate env d = .ret new) : Refines env d new := by
  simp only [mergeSubNegate, bind_ret, Inst.arg, at?_ret] at h
  obtain ⟨_, _, x, hx, y, hy, h⟩ := h
  split at h
  · rename_i h1
    simp only [bind_ret, to_ret, at?_ret] at h
    obtain ⟨z, hz, rfl⟩ := h
    apply refines0
    intro ρ hc i hi hu
    obtain ⟨s, hs, ht⟩ := self_ok (by rcases hop with h | h <;> rw [h] <;> rfl) hu
    rw [hs]
    rcases hop with hop | hop <;> rw [hop] at hs
    · obtain ⟨p, q, a, b, hd, ha, hb, rfl⟩ := inv_fsub hs
      simp [hd] at hx hy; subst hx; subst hy
      obtain ⟨a', ha', rfl⟩ := foldableNegation_f hc h1 hb hz
      fin [ha', ha, hasFloat_f ht]
    · obtain ⟨p, q, w, a, b, hd, ha, hb, rfl⟩ := inv_isub hs
      simp [hd] at hx hy; subst hx; subst hy
      obtain ⟨a', ha', rfl⟩ := foldableNegation_i hc h1 hb hz
      fin [ha', ha, hasFloat_i ht]
  · simp only [bind_ret, to_ret, at?_ret, some?_ret, need_ret, Env.constAt, Inst.arg, ret_inj] at h
    obtain ⟨_, _, _, ⟨y', hy', rfl⟩, c, hcc, _, h1, n, hn, z, hz, rfl⟩ := h
    apply refines0
    intro ρ hc i hi hu
    obtain ⟨s, hs, ht⟩ := self_ok (by rcases hop with h | h <;> rw [h] <;> rfl) hu
    rw [hs]
    rcases hop with hop | hop <;> rw [hop] at hs ⊢
    · obtain ⟨p, q, a, b, hd, ha, hb, rfl⟩ := inv_fsub hs
      simp [hd] at hx hy hy'; subst hx; subst hy; subst hy'
      obtain ⟨a', ha', rfl⟩ := foldableNegation_f hc h1 ha hz
      fin [ha', negate_f hn (hc.const_lane hb hcc)]
    · obtain ⟨p, q, w, a, b, hd, ha, hb, rfl⟩ := inv_isub hs
      simp [hd] at hx hy hy'; subst hx; subst hy; subst hy'
      obtain ⟨a', ha', rfl⟩ := foldableNegation_i hc h1 ha hz
      fin [ha', negate_i hn (hc.const_lane hb hcc)]

theorem mergeAddAdd_refines (hop : d.op = .fadd ∨ d.op = .iadd) (h : mergeAddAdd env d = .ret new) :
    Refines env d new := by
  simp only [mergeAddAdd, bind_ret, some?_ret, need_ret, to_ret] at h
  obtain ⟨_, _, _, _, _, h1, c1, rfl, y, hy, _, _, _, he, _, h2, c2, rfl, x, hx, m, hm, rfl⟩ := h
  apply refines0
  intro ρ hc i hi hu
  obtain ⟨s, hs, ht⟩ := self_ok (by rcases hop with h | h <;> rw [h] <;> rfl) hu
  rw [hs]
  simp only [Bool.or_eq_true, beq_iff_eq] at he
  rcases hop with hop | hop <;> rw [hop] at hs hm ⊢
  · obtain ⟨a, b, ha, hb, rfl⟩ := view_fadd hc hs h1 hy
    rcases he with he | he
    · obtain ⟨a', b', ha', hb', h⟩ := view_fadd hc (hc.def' ha he rfl) h2 hx; cases h
      obtain ⟨z, hz, hf⟩ := perform_f hm hb hb'
      simp [FOp] at hf; subst hf
      fin [ha', hz]
    · obtain ⟨w, a', b', _, _, h⟩ := view_iadd hc (hc.def' ha he rfl) h2 hx; cases h
  · obtain ⟨w, a, b, ha, hb, rfl⟩ := view_iadd hc hs h1 hy
    rcases he with he | he
    · obtain ⟨a', b', _, _, h⟩ := view_fadd hc (hc.def' ha he rfl) h2 hx; cases h
    · obtain ⟨w', a', b', ha', hb', h⟩ := view_iadd hc (hc.def' ha he rfl) h2 hx
      cases h
      obtain ⟨z, hz, hf⟩ := perform_i hm hb hb'
      simp [IOp] at hf; subst hf
      fin [ha', hz]

theorem mergeAddSub_refines (hop : d.op = .fadd ∨ d.op = .iadd) (h : mergeAddSub env d = .ret new) :
    Refines env d new := by
  simp only [mergeAddSub, bind_ret, some?_ret, need_ret, Env.constAt, Inst.arg, at?_ret, ret_inj,
    Bool.or_eq_true, beq_iff_eq] at h
  obtain ⟨_, _, _, _, _, h1, c1, rfl, y, hy, _, _, _, he, _, h2, c2, rfl, _, ⟨p0, hp0, rfl⟩, h⟩ := h
  have key : ∃ o as, new = ⟨[], o, as⟩ := by
    split at h <;> simp at h
    · obtain ⟨_, _, _, _, rfl⟩ := h; exact ⟨_, _, rfl⟩
    · obtain ⟨_, _, _, _, rfl⟩ := h; exact ⟨_, _, rfl⟩
  obtain ⟨o, as, rfl⟩ := key
  apply refines0
  intro ρ hc i hi hu
  obtain ⟨s, hs, ht⟩ := self_ok (by rcases hop with h | h <;> rw [h] <;> rfl) hu
  rw [hs]
  rcases hop with hop | hop <;> rw [hop] at hs
  · obtain ⟨a, b, ha, hb, rfl⟩ := view_fadd hc hs h1 hy
    rcases he with he | he
    · obtain ⟨u, v, a', b', hl, ha', hb', h'⟩ := inv_fsub (hc.def' ha he rfl); cases h'
      simp [hl] at hp0; subst hp0
      rcases pos hc hl h2 ha' hb' with ⟨h0, hcl, _⟩ | ⟨h0, hcl, _⟩
      · obtain ⟨k, h0⟩ := Option.isSome_iff_exists.1 h0
        simp [h0, hl] at h
        obtain ⟨m, hm, h⟩ := h
        obtain ⟨rfl, rfl⟩ := h
        rw [hop] at hm
        obtain ⟨z, hz, hf⟩ := perform_f hm hb hcl
        simp [FOp] at hf; subst hf
        fin [hz, hb', he]
      · simp [h0, hl] at h
        obtain ⟨m, hm, h⟩ := h
        obtain ⟨rfl, rfl⟩ := h
        rw [he] at hm
        obtain ⟨z, hz, hf⟩ := perform_f hm hb hcl
        simp [FOp] at hf; subst hf
        fin [hz, ha', hop]
    · obtain ⟨_, _, _, _, _, _, _, _, h⟩ := inv_isub (hc.def' ha he rfl); cases h
  · obtain ⟨w, a, b, ha, hb, rfl⟩ := view_iadd hc hs h1 hy
    rcases he with he | he
    · obtain ⟨_, _, _, _, _, _, _, h⟩ := inv_fsub (hc.def' ha he rfl); cases h
    · obtain ⟨u, v, w', a', b', hl, ha', hb', h'⟩ := inv_isub (hc.def' ha he rfl); cases h'
      simp [hl] at hp0; subst hp0
      rcases pos hc hl h2 ha' hb' with ⟨h0, hcl, _⟩ | ⟨h0, hcl, _⟩
      · obtain ⟨k, h0⟩ := Option.isSome_iff_exists.1 h0
        simp [h0, hl] at h
        obtain ⟨m, hm, h⟩ := h
        obtain ⟨rfl, rfl⟩ := h
        rw [hop] at hm
        obtain ⟨z, hz, hf⟩ := perform_i hm hb hcl
        simp [IOp] at hf; subst hf
        fin [hz, hb', he]
      · simp [h0, hl] at h
        obtain ⟨m, hm, h⟩ := h
        obtain ⟨rfl, rfl⟩ := h
        rw [he] at hm
        obtain ⟨z, hz, hf⟩ := perform_i hm hb hcl
        simp [IOp] at hf; subst hf
        fin [hz, ha', hop]

theorem mergeSubAdd_refines (hop : d.op = .fsub ∨ d.op = .isub) (h : mergeSubAdd env d = .ret new) :
    Refines env d new := by
  simp only [mergeSubAdd, bind_ret, some?_ret, need_ret, Env.constAt, Inst.arg, at?_ret, ret_inj,
    Bool.or_eq_true, beq_iff_eq] at h
  obtain ⟨_, _, _, _, _, h1, c1, rfl, y, hy, _, _, _, he, _, h2, c2, rfl, x, hx, _, ⟨p0, hp0, rfl⟩,
    m, hm, h⟩ := h
  have key : ∃ o as, new = ⟨[], o, as⟩ := by
    split at h <;> simp at h <;> subst h <;> exact ⟨_, _, rfl⟩
  obtain ⟨o, as, rfl⟩ := key
  apply refines0
  intro ρ hc i hi hu
  obtain ⟨s, hs, ht⟩ := self_ok (by rcases hop with h | h <;> rw [h] <;> rfl) hu
  rw [hs]
  rcases hop with hop | hop <;> rw [hop] at hs hm
  · obtain ⟨p, q, a, b, hl, ha, hb, rfl⟩ := inv_fsub hs
    simp [hl] at hp0; subst hp0
    rcases constPair hl h1 hy with ⟨rfl, hp⟩ | ⟨rfl, hp, hp'⟩
    · have hcl := hc.const_lane ha hp
      simp [hp] at h hm
      obtain ⟨rfl, rfl⟩ := h
      rcases he with he | he
      · obtain ⟨a', b', ha', hb', h⟩ := view_fadd hc (hc.def' hb he rfl) h2 hx; cases h
        obtain ⟨z, hz, hf⟩ := perform_f hm hcl hb'
        simp [FOp] at hf; subst hf
        fin [hz, ha', hop]
      · obtain ⟨_, _, _, _, _, h⟩ := view_iadd hc (hc.def' hb he rfl) h2 hx; cases h
    · have hcl := hc.const_lane hb hp
      simp [hp'] at h hm
      obtain ⟨rfl, rfl⟩ := h
      rcases he with he | he
      · obtain ⟨a', b', ha', hb', h⟩ := view_fadd hc (hc.def' ha he rfl) h2 hx; cases h
        obtain ⟨z, hz, hf⟩ := perform_f hm hb' hcl
        simp [FOp] at hf; subst hf
        fin [hz, ha', he]
      · obtain ⟨_, _, _, _, _, h⟩ := view_iadd hc (hc.def' ha he rfl) h2 hx; cases h
  · obtain ⟨p, q, w, a, b, hl, ha, hb, rfl⟩ := inv_isub hs
    simp [hl] at hp0; subst hp0
    rcases constPair hl h1 hy with ⟨rfl, hp⟩ | ⟨rfl, hp, hp'⟩
    · have hcl := hc.const_lane ha hp
      simp [hp] at h hm
      obtain ⟨rfl, rfl⟩ := h
      rcases he with he | he
      · obtain ⟨_, _, _, _, h⟩ := view_fadd hc (hc.def' hb he rfl) h2 hx; cases h
      · obtain ⟨w', a', b', ha', hb', h⟩ := view_iadd hc (hc.def' hb he rfl) h2 hx; cases h
        obtain ⟨z, hz, hf⟩ := perform_i hm hcl hb'
        simp [IOp] at hf; subst hf
        fin [hz, ha', hop]
    · have hcl := hc.const_lane hb hp
      simp [hp'] at h hm
      obtain ⟨rfl, rfl⟩ := h
      rcases he with he | he
      · obtain ⟨_, _, _, _, h⟩ := view_fadd hc (hc.def' ha he rfl) h2 hx; cases h
      · obtain ⟨w', a', b', ha', hb', h⟩ := view_iadd hc (hc.def' ha he rfl) h2 hx; cases h
        obtain ⟨z, hz, hf⟩ := perform_i hm hb' hcl
        simp [IOp] at hf; subst hf
        fin [hz, ha', he]

theorem mergeSubSub_refines (hop : d.op = .fsub ∨ d.op = .isub) (h : mergeSubSub env d = .ret new) :
    Refines env d new := by
  simp only [mergeSubSub, bind_ret, some?_ret, need_ret, Env.constAt, Inst.arg, at?_ret, ret_inj,
    to_ret, Bool.or_eq_true, beq_iff_eq] at h
  obtain ⟨_, _, _, _, _, h1, c1, rfl, y, hy, _, _, _, he, _, h2, c2, rfl, x, hx, _, ⟨p0, hp0, rfl⟩,
    _, ⟨q0, hq0, rfl⟩, m, hm, rfl⟩ := h
  apply refines0
  intro ρ hc i hi hu
  obtain ⟨s, hs, ht⟩ := self_ok (by rcases hop with h | h <;> rw [h] <;> rfl) hu
  rw [hs]
  rcases hop with hop | hop <;> rw [hop] at hs hm
  · obtain ⟨p, q, a, b, hl, ha, hb, rfl⟩ := inv_fsub hs
    simp [hl] at hp0; subst hp0
    rw [hasFloat_f ht] at hm ⊢
    rcases constPair hl h1 hy with ⟨rfl, hp⟩ | ⟨rfl, hp, hp'⟩
    · have hcl := hc.const_lane ha hp
      rcases he with he | he
      · obtain ⟨u, v, a', b', hl', ha', hb', h⟩ := inv_fsub (hc.def' hb he rfl); cases h
        simp [hl'] at hq0; subst hq0
        rcases constPair hl' h2 hx with ⟨rfl, hq⟩ | ⟨rfl, hq, hq'⟩
        · have hcl' := hc.const_lane ha' hq
          simp [hp, hq] at hm
          obtain ⟨z, hz, hf⟩ := perform_f hm hcl hcl'
          simp [FOp] at hf; subst hf
          fin [hz, hb', hop, hp, hq]
        · have hcl' := hc.const_lane hb' hq
          simp [hp, hq'] at hm
          obtain ⟨z, hz, hf⟩ := perform_f hm hcl hcl'
          simp [FOp] at hf; subst hf
          fin [hz, ha', hop, hp, hq']
      · obtain ⟨_, _, _, _, _, _, _, _, h⟩ := inv_isub (hc.def' hb he rfl); cases h
    · have hcl := hc.const_lane hb hp
      rcases he with he | he
      · obtain ⟨u, v, a', b', hl', ha', hb', h⟩ := inv_fsub (hc.def' ha he rfl); cases h
        simp [hl'] at hq0; subst hq0
        rcases constPair hl' h2 hx with ⟨rfl, hq⟩ | ⟨rfl, hq, hq'⟩
        · have hcl' := hc.const_lane ha' hq
          simp [hp', hq] at hm
          obtain ⟨z, hz, hf⟩ := perform_f hm hcl' hcl
          simp [FOp] at hf; subst hf
          fin [hz, hb', hop, hp', hq]
        · have hcl' := hc.const_lane hb' hq
          simp [hp', hq'] at hm
          obtain ⟨z, hz, hf⟩ := perform_f hm hcl hcl'
          simp [FOp] at hf; subst hf
          fin [hz, ha', hop, hp', hq']
      · obtain ⟨_, _, _, _, _, _, _, _, h⟩ := inv_isub (hc.def' ha he rfl); cases h
  · obtain ⟨p, q, w, a, b, hl, ha, hb, rfl⟩ := inv_isub hs
    simp [hl] at hp0; subst hp0
    rw [hasFloat_i ht] at hm ⊢
    rcases constPair hl h1 hy with ⟨rfl, hp⟩ | ⟨rfl, hp, hp'⟩
    · have hcl := hc.const_lane ha hp
      rcases he with he | he
      · obtain ⟨_, _, _, _, _, _, _, h⟩ := inv_fsub (hc.def' hb he rfl); cases h
      · obtain ⟨u, v, w', a', b', hl', ha', hb', h⟩ := inv_isub (hc.def' hb he rfl); cases h
        simp [hl'] at hq0; subst hq0
        rcases constPair hl' h2 hx with ⟨rfl, hq⟩ | ⟨rfl, hq, hq'⟩
        · have hcl' := hc.const_lane ha' hq
          simp [hp, hq] at hm
          obtain ⟨z, hz, hf⟩ := perform_i hm hcl hcl'
          simp [IOp] at hf; subst hf
          fin [hz, hb', hop, hp, hq]
        · have hcl' := hc.const_lane hb' hq
          simp [hp, hq'] at hm
          obtain ⟨z, hz, hf⟩ := perform_i hm hcl hcl'
          simp [IOp] at hf; subst hf
          fin [hz, ha', hop, hp, hq']
    · have hcl := hc.const_lane hb hp
      rcases he with he | he
      · obtain ⟨_, _, _, _, _, _, _, h⟩ := inv_fsub (hc.def' ha he rfl); cases h
      · obtain ⟨u, v, w', a', b', hl', ha', hb', h⟩ := inv_isub (hc.def' ha he rfl); cases h
        simp [hl'] at hq0; subst hq0
        rcases constPair hl' h2 hx with ⟨rfl, hq⟩ | ⟨rfl, hq, hq'⟩
        · have hcl' := hc.const_lane ha' hq
          simp [hp', hq] at hm
          obtain ⟨z, hz, hf⟩ := perform_i hm hcl' hcl
          simp [IOp] at hf; subst hf
          fin [hz, hb', hop, hp', hq]
        · have hcl' := hc.const_lane hb' hq
          simp [hp', hq'] at hm
          obtain ⟨z, hz, hf⟩ := perform_i hm hcl hcl'
          simp [IOp] at hf; subst hf
          fin [hz, ha', hop, hp', hq']

theorem genericAddendSub_refines {x y : Id} (hop : d.op = .fadd ∨ d.op = .iadd)
    (hxy : (d.args[0]? = some x ∧ d.args[1]? = some y) ∨ (d.args[0]? = some y ∧ d.args[1]? = some x))
    (h : genericAddendSub env x y = .ret new) : Refines env d new := by
  simp only [genericAddendSub, bind_ret, need_ret, to_ret, Inst.arg, at?_ret, Bool.or_eq_true,
    beq_iff_eq] at h
  obtain ⟨_, he, _, _, z, hz, _, hzz, u, hu', rfl⟩ := h
  subst hzz
  apply refines0
  intro ρ hc i hi hu
  obtain ⟨s, hs, ht⟩ := self_ok (by rcases hop with h | h <;> rw [h] <;> rfl) hu
  rw [hs]
  rcases hop with hop | hop <;> rw [hop] at hs
  · have : ∃ a b, ln (ρ x) i = some (.f a) ∧ ln (ρ y) i = some (.f b) ∧ s = .f (a + b) := by
      obtain ⟨p, q, a, b, hd, ha, hb, rfl⟩ := inv_fadd hs
      simp [hd] at hxy
      rcases hxy with ⟨rfl, rfl⟩ | ⟨rfl, rfl⟩
      · exact ⟨a, b, ha, hb, rfl⟩
      · exact ⟨b, a, hb, ha, by congr 1; grind⟩
    obtain ⟨a, b, ha, hb, rfl⟩ := this
    rcases he with he | he
    · obtain ⟨p, q, a', b', hl, ha', hb', h⟩ := inv_fsub (hc.def' hb he rfl); cases h
      simp [hl] at hz hu'; subst hz; subst hu'
      rw [ha] at hb'; cases hb'
      fin [ha']
    · obtain ⟨_, _, _, _, _, _, _, _, h⟩ := inv_isub (hc.def' hb he rfl); cases h
  · have : ∃ w a b, ln (ρ x) i = some (.i w a) ∧ ln (ρ y) i = some (.i w b) ∧ s = .i w (a + b) := by
      obtain ⟨p, q, w, a, b, hd, ha, hb, rfl⟩ := inv_iadd hs
      simp [hd] at hxy
      rcases hxy with ⟨rfl, rfl⟩ | ⟨rfl, rfl⟩
      · exact ⟨w, a, b, ha, hb, rfl⟩
      · exact ⟨w, b, a, hb, ha, by congr 1; grind⟩
    obtain ⟨w, a, b, ha, hb, rfl⟩ := this
    rcases he with he | he
    · obtain ⟨_, _, _, _, _, _, _, h⟩ := inv_fsub (hc.def' hb he rfl); cases h
    · obtain ⟨p, q, w', a', b', hl, ha', hb', h⟩ := inv_isub (hc.def' hb he rfl); cases h
      simp [hl] at hz hu'; subst hz; subst hu'
      rw [ha] at hb'; cases hb'
      fin [ha']

theorem mergeGenericAddSub_refines (hop : d.op = .fadd ∨ d.op = .iadd)
    (h : mergeGenericAddSub env d = .ret new) : Refines env d new := by
  simp only [mergeGenericAddSub, bind_ret, Inst.arg, at?_ret, orElse_ret] at h
  obtain ⟨_, _, _, _, x, hx, y, hy, h | ⟨_, h⟩⟩ := h
  · exact genericAddendSub_refines hop (.inl ⟨hx, hy⟩) h
  · exact genericAddendSub_refines hop (.inr ⟨hx, hy⟩) h

theorem intMultipleBy1_refines (hop : d.op = .imul) (h : intMultipleBy1 env d = .ret new) :
    Refines env d new := by
  have one : ∀ {c : Option (Const F)} {b : Bool}, intOne c = some (b, true) →
      ∃ k, c = some k ∧ ∀ {i w : Nat} {v : BitVec w}, k.lanes[i]? = some (.i w v) → v = 1#w := by
    intro c b h
    unfold intOne at h
    split at h
    · rename_i w s v
      simp at h
      refine ⟨_, rfl, ?_⟩
      intro i w' v' hv
      rcases i with _ | i <;> simp [Const.lanes, SC.val] at hv
      obtain ⟨rfl, hv⟩ := hv
      simp at hv; rw [← hv, h.2]
    · cases h
  simp only [intMultipleBy1, bind_ret, Env.constAt, Inst.arg, at?_ret, ret_inj] at h
  obtain ⟨_, ⟨x0, hx0, rfl⟩, _, ⟨x1, hx1, rfl⟩, x, hx, y, hy, h⟩ := h
  have : (∃ b, intOne (env.const x0) = some (b, true) ∧ new = ⟨[], .copy, [.id y]⟩) ∨
      (∃ b, intOne (env.const x1) = some (b, true) ∧ new = ⟨[], .copy, [.id x]⟩) := by
    split at h
    · cases h
    · simp at h; exact .inl ⟨_, by assumption, h⟩
    · split at h
      · simp at h; exact .inr ⟨_, by assumption, h⟩
      · cases h
  rcases this with ⟨b, h1, rfl⟩ | ⟨b, h1, rfl⟩
  · apply refines0
    intro ρ hc i hi hu
    obtain ⟨s, hs, ht⟩ := self_ok (by rw [hop]; rfl) hu
    rw [hs]; rw [hop] at hs
    obtain ⟨p, q, w, a, b', hl, ha, hb, rfl⟩ := inv_imul hs
    simp [hl] at hx0 hx1 hx hy; subst hx0; subst hx1; subst hx; subst hy
    obtain ⟨k, hk, h1⟩ := one h1
    have := h1 (hc.const_lane ha hk); subst this
    fin [hb]
  · apply refines0
    intro ρ hc i hi hu
    obtain ⟨s, hs, ht⟩ := self_ok (by rw [hop]; rfl) hu
    rw [hs]; rw [hop] at hs
    obtain ⟨p, q, w, a, b', hl, ha, hb, rfl⟩ := inv_imul hs
    simp [hl] at hx0 hx1 hx hy; subst hx0; subst hx1; subst hx; subst hy
    obtain ⟨k, hk, h1⟩ := one h1
    have := h1 (hc.const_lane hb hk); subst this
    fin [ha]

end Verif.Rules
