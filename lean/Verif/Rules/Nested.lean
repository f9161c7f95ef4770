import Verif.Rules.Arith

set_option linter.unusedSimpArgs false
set_option linter.unusedVariables false
set_option linter.unusedSectionVars false

/-! # The rules that add instructions: factoring and reassociation -/
namespace Verif.Rules
variable {F : Type} [FloatSem F] [DecidableEq F] {env : Env F} {d : Inst} {new : New F}

local macro "fin" "[" ts:Lean.Parser.Tactic.simpLemma,* "]" : tactic =>
  `(tactic| ((try simp [Le, raw, Ref.val, f2, f1, i1, $ts,*]) <;> grind))

/-- The value of a multiplication, with its operands in either order. -/
def MulOf (env : Env F) (x f g : Id) : Prop :=
  ((env.get x).op = .fmul ∨ (env.get x).op = .imul) ∧
  (((env.get x).args[0]? = some f ∧ (env.get x).args[1]? = some g) ∨
   ((env.get x).args[0]? = some g ∧ (env.get x).args[1]? = some f))

theorem MulOf.f {ρ : Id → Option (Val F)} (hc : Consistent env ρ) {x f g : Id} (h : MulOf env x f g)
    {i : Nat} {a : F} (ha : ln (ρ x) i = some (.f a)) :
    ∃ u v, ln (ρ f) i = some (.f u) ∧ ln (ρ g) i = some (.f v) ∧ a = u * v := by
  obtain ⟨he | he, hl⟩ := h
  · obtain ⟨p, q, u, v, hd, hu, hv, h⟩ := inv_fmul (hc.def' ha he rfl); cases h
    simp [hd] at hl
    rcases hl with ⟨rfl, rfl⟩ | ⟨rfl, rfl⟩
    · exact ⟨u, v, hu, hv, rfl⟩
    · exact ⟨v, u, hv, hu, by grind⟩
  · obtain ⟨_, _, _, _, _, _, _, _, h⟩ := inv_imul (hc.def' ha he rfl); cases h

theorem MulOf.i {ρ : Id → Option (Val F)} (hc : Consistent env ρ) {x f g : Id} (h : MulOf env x f g)
    {i w : Nat} {a : BitVec w} (ha : ln (ρ x) i = some (.i w a)) :
    ∃ u v, ln (ρ f) i = some (.i w u) ∧ ln (ρ g) i = some (.i w v) ∧ a = u * v := by
  obtain ⟨he | he, hl⟩ := h
  · obtain ⟨_, _, _, _, _, _, _, h⟩ := inv_fmul (hc.def' ha he rfl); cases h
  · obtain ⟨p, q, w', u, v, hd, hu, hv, h⟩ := inv_imul (hc.def' ha he rfl); cases h
    simp [hd] at hl
    rcases hl with ⟨rfl, rfl⟩ | ⟨rfl, rfl⟩
    · exact ⟨u, v, hu, hv, rfl⟩
    · exact ⟨v, u, hv, hu, by grind⟩

theorem factorOpnds_refines (hop : d.op = .fadd ∨ d.op = .fsub ∨ d.op = .iadd ∨ d.op = .isub)
    {x y f g f' g' : Id} (hx : d.args[0]? = some x) (hy : d.args[1]? = some y)
    (h1 : MulOf env x f g) (h2 : MulOf env y f' g') (h : factorOpnds env d f g f' g' = .ret new) :
    Refines env d new := by
  simp only [factorOpnds, bind_ret, need_ret, beq_iff_eq, ret_inj] at h
  obtain ⟨_, rfl, _, _, rfl⟩ := h
  apply refines1'
  intro ρ hc i hi hu
  obtain ⟨s, hs, ht⟩ := self_ok (by rcases hop with h | h | h | h <;> rw [h] <;> rfl) hu
  rw [hs]
  rcases hop with hop | hop | hop | hop <;> rw [hop] at hs ⊢
  · obtain ⟨p, q, a, b, hd, ha, hb, rfl⟩ := inv_fadd hs
    simp [hd] at hx hy; subst hx; subst hy
    obtain ⟨u, v, hu, hv, rfl⟩ := h1.f hc ha
    obtain ⟨u', v', hu', hv', rfl⟩ := h2.f hc hb
    rw [hu] at hu'; cases hu'
    refine ⟨.f (v + v'), by simp [raw, Ref.val, f2, hv, hv'], hasTy_f ht, fun ν _ hν => ?_⟩
    fin [hu, hν]
  · obtain ⟨p, q, a, b, hd, ha, hb, rfl⟩ := inv_fsub hs
    simp [hd] at hx hy; subst hx; subst hy
    obtain ⟨u, v, hu, hv, rfl⟩ := h1.f hc ha
    obtain ⟨u', v', hu', hv', rfl⟩ := h2.f hc hb
    rw [hu] at hu'; cases hu'
    refine ⟨.f (v - v'), by simp [raw, Ref.val, f2, hv, hv'], hasTy_f ht, fun ν _ hν => ?_⟩
    fin [hu, hν]
  · obtain ⟨p, q, w, a, b, hd, ha, hb, rfl⟩ := inv_iadd hs
    simp [hd] at hx hy; subst hx; subst hy
    obtain ⟨u, v, hu, hv, rfl⟩ := h1.i hc ha
    obtain ⟨u', v', hu', hv', rfl⟩ := h2.i hc hb
    rw [hu] at hu'; cases hu'
    refine ⟨.i w (v + v'), by simp [raw, Ref.val, hv, hv'], hasTy_i ht, fun ν _ hν => ?_⟩
    fin [hu, hν]
  · obtain ⟨p, q, w, a, b, hd, ha, hb, rfl⟩ := inv_isub hs
    simp [hd] at hx hy; subst hx; subst hy
    obtain ⟨u, v, hu, hv, rfl⟩ := h1.i hc ha
    obtain ⟨u', v', hu', hv', rfl⟩ := h2.i hc hb
    rw [hu] at hu'; cases hu'
    refine ⟨.i w (v - v'), by simp [raw, Ref.val, hv, hv'], hasTy_i ht, fun ν _ hν => ?_⟩
    fin [hu, hν]

theorem factorAddSubMuls_refines (hop : d.op = .fadd ∨ d.op = .fsub ∨ d.op = .iadd ∨ d.op = .isub)
    (h : factorAddSubMuls env d = .ret new) : Refines env d new := by
  simp only [factorAddSubMuls, bind_ret, need_ret, beq_iff_eq, Inst.arg, at?_ret, orElse_ret,
    Bool.or_eq_true] at h
  obtain ⟨_, _, x, hx, _, h1, y, hy, _, h2, _, _, _, _, _, _, a0, ha0, a1, ha1, b0, hb0, b1, hb1, h⟩ := h
  rcases h with h | ⟨_, h | ⟨_, h | ⟨_, h⟩⟩⟩
  · exact factorOpnds_refines hop hx hy ⟨h1, .inl ⟨ha0, ha1⟩⟩ ⟨h2, .inl ⟨hb0, hb1⟩⟩ h
  · exact factorOpnds_refines hop hx hy ⟨h1, .inl ⟨ha0, ha1⟩⟩ ⟨h2, .inr ⟨hb0, hb1⟩⟩ h
  · exact factorOpnds_refines hop hx hy ⟨h1, .inr ⟨ha0, ha1⟩⟩ ⟨h2, .inl ⟨hb0, hb1⟩⟩ h
  · exact factorOpnds_refines hop hx hy ⟨h1, .inr ⟨ha0, ha1⟩⟩ ⟨h2, .inr ⟨hb0, hb1⟩⟩ h

theorem reassociateNestedInt_refines (hop : d.op = .imul ∨ d.op = .or ∨ d.op = .xor ∨ d.op = .and)
    (h : reassociateNestedInt env d = .ret new) : Refines env d new := by
  simp only [reassociateNestedInt, bind_ret, need_ret, beq_iff_eq, Inst.arg, at?_ret, Env.constAt,
    some?_ret, ret_inj, Bool.and_eq_true] at h
  obtain ⟨_, _, _, _, _, _, _, _, _, _, p, hp, q, hq, _, ⟨hel, her⟩, _, h1, cl, rfl, _, h2, cr, rfl,
    m, hm, x, hx, y, hy, _, _, rfl⟩ := h
  apply refines1'
  intro ρ hc i hi hu
  obtain ⟨s, hs, ht⟩ := self_ok (by rcases hop with h | h | h | h <;> rw [h] <;> rfl) hu
  rw [hs]
  rcases hop with hop | hop | hop | hop <;> rw [hop] at hs hm hel her ⊢
  · obtain ⟨p', q', w, a, b, hd, ha, hb, rfl⟩ := inv_imul hs
    simp [hd] at hp hq; subst hp; subst hq
    obtain ⟨w1, u, v, hu, hv, h⟩ := view_imul hc (hc.def' ha hel rfl) h1 hx; cases h
    obtain ⟨w2, u', v', hu', hv', h⟩ := view_imul hc (hc.def' hb her rfl) h2 hy; cases h
    obtain ⟨z, hz, hf⟩ := perform_i hm hv hv'
    simp [IOp] at hf; subst hf
    refine ⟨.i w (u * u'), by simp [raw, Ref.val, hu, hu'], hasTy_i ht, fun ν _ hν => ?_⟩
    fin [hz, hν]
  · obtain ⟨p', q', w, a, b, hd, ha, hb, rfl⟩ := inv_or hs
    simp [hd] at hp hq; subst hp; subst hq
    obtain ⟨w1, u, v, hu, hv, h⟩ := view_or hc (hc.def' ha hel rfl) h1 hx; cases h
    obtain ⟨w2, u', v', hu', hv', h⟩ := view_or hc (hc.def' hb her rfl) h2 hy; cases h
    obtain ⟨z, hz, hf⟩ := perform_i hm hv hv'
    simp [IOp] at hf; subst hf
    refine ⟨.i w (u ||| u'), by simp [raw, Ref.val, hu, hu'], hasTy_i ht, fun ν _ hν => ?_⟩
    simp [Le, raw, Ref.val, hz, hν]; ac_rfl
  · obtain ⟨p', q', w, a, b, hd, ha, hb, rfl⟩ := inv_xor hs
    simp [hd] at hp hq; subst hp; subst hq
    obtain ⟨w1, u, v, hu, hv, h⟩ := view_xor hc (hc.def' ha hel rfl) h1 hx; cases h
    obtain ⟨w2, u', v', hu', hv', h⟩ := view_xor hc (hc.def' hb her rfl) h2 hy; cases h
    obtain ⟨z, hz, hf⟩ := perform_i hm hv hv'
    simp [IOp] at hf; subst hf
    refine ⟨.i w (u ^^^ u'), by simp [raw, Ref.val, hu, hu'], hasTy_i ht, fun ν _ hν => ?_⟩
    simp [Le, raw, Ref.val, hz, hν]; ac_rfl
  · obtain ⟨p', q', w, a, b, hd, ha, hb, rfl⟩ := inv_and hs
    simp [hd] at hp hq; subst hp; subst hq
    obtain ⟨w1, u, v, hu, hv, h⟩ := view_and hc (hc.def' ha hel rfl) h1 hx; cases h
    obtain ⟨w2, u', v', hu', hv', h⟩ := view_and hc (hc.def' hb her rfl) h2 hy; cases h
    obtain ⟨z, hz, hf⟩ := perform_i hm hv hv'
    simp [IOp] at hf; subst hf
    refine ⟨.i w (u &&& u'), by simp [raw, Ref.val, hu, hu'], hasTy_i ht, fun ν _ hν => ?_⟩
    simp [Le, raw, Ref.val, hz, hν]; ac_rfl

/-- A sum or difference as a sum of a signed constant and a signed term. -/
theorem signed_f {ρ : Id → Option (Val F)} (hc : Consistent env ρ) {x p0 y : Id} {c c' : Const F}
    {i : Nat} {a : F} (ha : ln (ρ x) i = some (.f a))
    (he : (env.get x).op = .fadd ∨ (env.get x).op = .fsub)
    (h1 : env.constInput (env.get x) = .ret (some c)) (hp0 : (env.get x).args[0]? = some p0)
    (hy : (env.get x).args[if (env.const p0).isSome then 1 else 0]? = some y) :
    ∃ k u, c.lanes[i]? = some (.f k) ∧ ln (ρ y) i = some (.f u) ∧
      a = (if (if (env.const p0).isSome then false else (env.get x).op == .fsub) then -k else k) +
          (if (if (env.const p0).isSome then (env.get x).op == .fsub else false) then -u else u) := by
  rcases he with he | he
  · obtain ⟨p, q, u, v, hd, hu, hv, h⟩ := inv_fadd (hc.def' ha he rfl); cases h
    simp [hd] at hp0; subst hp0
    rcases pos hc hd h1 hu hv with ⟨h0, hcl, _⟩ | ⟨h0, hcl, _⟩
    · simp [hd, h0] at hy; subst hy
      exact ⟨u, v, hcl, hv, by simp [h0, he]⟩
    · simp [hd, h0] at hy; subst hy
      exact ⟨v, u, hcl, hu, by simp [h0, he]; grind⟩
  · obtain ⟨p, q, u, v, hd, hu, hv, h⟩ := inv_fsub (hc.def' ha he rfl); cases h
    simp [hd] at hp0; subst hp0
    rcases pos hc hd h1 hu hv with ⟨h0, hcl, _⟩ | ⟨h0, hcl, _⟩
    · simp [hd, h0] at hy; subst hy
      exact ⟨u, v, hcl, hv, by simp [h0, he]; grind⟩
    · simp [hd, h0] at hy; subst hy
      exact ⟨v, u, hcl, hu, by simp [h0, he]; grind⟩

theorem signed_i {ρ : Id → Option (Val F)} (hc : Consistent env ρ) {x p0 y : Id} {c c' : Const F}
    {i w : Nat} {a : BitVec w} (ha : ln (ρ x) i = some (.i w a))
    (he : (env.get x).op = .iadd ∨ (env.get x).op = .isub)
    (h1 : env.constInput (env.get x) = .ret (some c)) (hp0 : (env.get x).args[0]? = some p0)
    (hy : (env.get x).args[if (env.const p0).isSome then 1 else 0]? = some y) :
    ∃ k u, c.lanes[i]? = some (.i w k) ∧ ln (ρ y) i = some (.i w u) ∧
      a = (if (if (env.const p0).isSome then false else (env.get x).op == .isub) then -k else k) +
          (if (if (env.const p0).isSome then (env.get x).op == .isub else false) then -u else u) := by
  rcases he with he | he
  · obtain ⟨p, q, w', u, v, hd, hu, hv, h⟩ := inv_iadd (hc.def' ha he rfl); cases h
    simp [hd] at hp0; subst hp0
    rcases pos hc hd h1 hu hv with ⟨h0, hcl, _⟩ | ⟨h0, hcl, _⟩
    · simp [hd, h0] at hy; subst hy
      exact ⟨u, v, hcl, hv, by simp [h0, he]⟩
    · simp [hd, h0] at hy; subst hy
      exact ⟨v, u, hcl, hu, by simp [h0, he]; grind⟩
  · obtain ⟨p, q, w', u, v, hd, hu, hv, h⟩ := inv_isub (hc.def' ha he rfl); cases h
    simp [hd] at hp0; subst hp0
    rcases pos hc hd h1 hu hv with ⟨h0, hcl, _⟩ | ⟨h0, hcl, _⟩
    · simp [hd, h0] at hy; subst hy
      exact ⟨u, v, hcl, hv, by simp [h0, he]; grind⟩
    · simp [hd, h0] at hy; subst hy
      exact ⟨v, u, hcl, hu, by simp [h0, he]; grind⟩

theorem negIf_f {b : Bool} {c c' : Const F} (h : (if b = true then negate c else .ret c) = .ret c')
    {i : Nat} {k : F} (hk : c.lanes[i]? = some (.f k)) :
    c'.lanes[i]? = some (.f (if b then -k else k)) := by
  cases b
  · simp [ret_inj] at h; subst h; simpa using hk
  · simp at h; simpa using negate_f h hk

theorem negIf_i {b : Bool} {c c' : Const F} (h : (if b = true then negate c else .ret c) = .ret c')
    {i w : Nat} {k : BitVec w} (hk : c.lanes[i]? = some (.i w k)) :
    c'.lanes[i]? = some (.i w (if b then -k else k)) := by
  cases b
  · simp [ret_inj] at h; subst h; simpa using hk
  · simp at h; simpa using negate_i h hk

theorem reassociateAddSub_refines (hop : d.op = .fadd ∨ d.op = .fsub ∨ d.op = .iadd ∨ d.op = .isub)
    (h : reassociateAddSub env d = .ret new) : Refines env d new := by
  simp only [reassociateAddSub, bind_ret, need_ret, Inst.arg, at?_ret, Env.constAt,
    some?_ret, ret_inj] at h
  obtain ⟨_, _, _, _, _, _, _, _, _, _, _, _, p, hp, q, hq, _, he, _, _, _, h1, cl, rfl, _, h2, cr, rfl,
    _, ⟨p0, hp0, rfl⟩, _, ⟨q0, hq0, rfl⟩, x, hx, y, hy, cl', hcl', cr', hcr', m, hm, _, _, rfl⟩ := h
  apply refines1'
  intro ρ hc i hi hu
  obtain ⟨s, hs, ht⟩ := self_ok (by rcases hop with h | h | h | h <;> rw [h] <;> rfl) hu
  rw [hs]
  rcases hop with hop | hop | hop | hop <;> rw [hop] at hs hcr' ⊢
  · obtain ⟨p', q', a, b, hd, ha, hb, rfl⟩ := inv_fadd hs
    simp [hd] at hp hq; subst hp; subst hq
    simp only [hasFloat_f ht, if_true, Bool.false_eq_true, if_false] at he hcl' hcr' hm ⊢
    simp only [Bool.and_eq_true, Bool.or_eq_true, beq_iff_eq] at he
    obtain ⟨k, u, hk, hu, rfl⟩ := signed_f hc (c' := cl) ha he.1 h1 hp0 hx
    obtain ⟨k', u', hk', hu', rfl⟩ := signed_f hc (c' := cl) hb he.2 h2 hq0 hy
    generalize (if (env.const p0).isSome then false else (env.get p').op == .fsub) = cn at *
    generalize (if (env.const p0).isSome then (env.get p').op == .fsub else false) = xn at *
    generalize (if (env.const q0).isSome then false else (env.get q').op == .fsub) = cn' at *
    generalize (if (env.const q0).isSome then (env.get q').op == .fsub else false) = yn at *
    have hk := negIf_f hcl' hk
    have hk' := negIf_f hcr' hk'
    obtain ⟨z, hz, hf⟩ := perform_f hm hk hk'
    simp [FOp] at hf; subst hf
    refine ⟨.f (if xn && yn then u + u' else if xn then u' - u else if yn then u - u' else u + u'), ?_,
      hasTy_f ht, fun ν _ hν => ?_⟩
    · clear hs ht ha hb hz hk hk' hcl' hcr'
      cases xn <;> cases yn <;> simp [raw, Ref.val, f2, hu, hu']
    · clear hs ht ha hb hk hk' hcl' hcr'
      cases xn <;> cases yn <;> simp at hν hz <;> fin [hν, hz]
  · obtain ⟨p', q', a, b, hd, ha, hb, rfl⟩ := inv_fsub hs
    simp [hd] at hp hq; subst hp; subst hq
    simp only [hasFloat_f ht, if_true, Bool.false_eq_true, if_false] at he hcl' hcr' hm ⊢
    simp only [Bool.and_eq_true, Bool.or_eq_true, beq_iff_eq] at he
    obtain ⟨k, u, hk, hu, rfl⟩ := signed_f hc (c' := cl) ha he.1 h1 hp0 hx
    obtain ⟨k', u', hk', hu', rfl⟩ := signed_f hc (c' := cl) hb he.2 h2 hq0 hy
    generalize (if (env.const p0).isSome then false else (env.get p').op == .fsub) = cn at *
    generalize (if (env.const p0).isSome then (env.get p').op == .fsub else false) = xn at *
    generalize (if (env.const q0).isSome then false else (env.get q').op == .fsub) = cn' at *
    generalize (if (env.const q0).isSome then (env.get q').op == .fsub else false) = yn at *
    have hk := negIf_f hcl' hk
    have hk' := negIf_f hcr' hk'
    obtain ⟨z, hz, hf⟩ := perform_f hm hk hk'
    simp [FOp] at hf; subst hf
    refine ⟨.f (if xn && !yn then u + u' else if xn then u' - u else if !yn then u - u' else u + u'), ?_,
      hasTy_f ht, fun ν _ hν => ?_⟩
    · clear hs ht ha hb hz hk hk' hcl' hcr'
      cases xn <;> cases yn <;> simp [raw, Ref.val, f2, hu, hu']
    · clear hs ht ha hb hk hk' hcl' hcr'
      cases xn <;> cases yn <;> simp at hν hz <;> fin [hν, hz]
  · obtain ⟨p', q', w, a, b, hd, ha, hb, rfl⟩ := inv_iadd hs
    simp [hd] at hp hq; subst hp; subst hq
    simp only [hasFloat_i ht, if_true, Bool.false_eq_true, if_false] at he hcl' hcr' hm ⊢
    simp only [Bool.and_eq_true, Bool.or_eq_true, beq_iff_eq] at he
    obtain ⟨k, u, hk, hu, rfl⟩ := signed_i hc (c' := cl) ha he.1 h1 hp0 hx
    obtain ⟨k', u', hk', hu', rfl⟩ := signed_i hc (c' := cl) hb he.2 h2 hq0 hy
    generalize (if (env.const p0).isSome then false else (env.get p').op == .isub) = cn at *
    generalize (if (env.const p0).isSome then (env.get p').op == .isub else false) = xn at *
    generalize (if (env.const q0).isSome then false else (env.get q').op == .isub) = cn' at *
    generalize (if (env.const q0).isSome then (env.get q').op == .isub else false) = yn at *
    have hk := negIf_i hcl' hk
    have hk' := negIf_i hcr' hk'
    obtain ⟨z, hz, hf⟩ := perform_i hm hk hk'
    simp [IOp] at hf; subst hf
    refine ⟨.i w (if xn && yn then u + u' else if xn then u' - u else if yn then u - u' else u + u'), ?_,
      hasTy_i ht, fun ν _ hν => ?_⟩
    · clear hs ht ha hb hz hk hk' hcl' hcr'
      cases xn <;> cases yn <;> simp [raw, Ref.val, f2, hu, hu']
    · clear hs ht ha hb hk hk' hcl' hcr'
      cases xn <;> cases yn <;> simp at hν hz <;> fin [hν, hz]
  · obtain ⟨p', q', w, a, b, hd, ha, hb, rfl⟩ := inv_isub hs
    simp [hd] at hp hq; subst hp; subst hq
    simp only [hasFloat_i ht, if_true, Bool.false_eq_true, if_false] at he hcl' hcr' hm ⊢
    simp only [Bool.and_eq_true, Bool.or_eq_true, beq_iff_eq] at he
    obtain ⟨k, u, hk, hu, rfl⟩ := signed_i hc (c' := cl) ha he.1 h1 hp0 hx
    obtain ⟨k', u', hk', hu', rfl⟩ := signed_i hc (c' := cl) hb he.2 h2 hq0 hy
    generalize (if (env.const p0).isSome then false else (env.get p').op == .isub) = cn at *
    generalize (if (env.const p0).isSome then (env.get p').op == .isub else false) = xn at *
    generalize (if (env.const q0).isSome then false else (env.get q').op == .isub) = cn' at *
    generalize (if (env.const q0).isSome then (env.get q').op == .isub else false) = yn at *
    have hk := negIf_i hcl' hk
    have hk' := negIf_i hcr' hk'
    obtain ⟨z, hz, hf⟩ := perform_i hm hk hk'
    simp [IOp] at hf; subst hf
    refine ⟨.i w (if xn && !yn then u + u' else if xn then u' - u else if !yn then u - u' else u + u'), ?_,
      hasTy_i ht, fun ν _ hν => ?_⟩
    · clear hs ht ha hb hz hk hk' hcl' hcr'
      cases xn <;> cases yn <;> simp [raw, Ref.val, f2, hu, hu']
    · clear hs ht ha hb hk hk' hcl' hcr'
      cases xn <;> cases yn <;> simp at hν hz <;> fin [hν, hz]

end Verif.Rules
