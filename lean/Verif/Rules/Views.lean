import Verif.Rules.Consts

set_option linter.unusedSimpArgs false
set_option linter.unusedVariables false
set_option linter.unusedSectionVars false

/-! # Lemmas: instructions with a constant operand -/
namespace Verif.Rules
variable {F : Type} [FloatSem F] [DecidableEq F] {env : Env F} {ρ : Id → Option (Val F)}
  {i : Nat} {s t : SV F} {e : Inst} {c : Const F} {x y p q : Id} {k0 : Option (Const F)} {ty : Ty}

/-- Operand by position. -/
theorem pos (hc : Consistent env ρ) (he : e.args = [p, q]) (h1 : env.constInput e = .ret (some c))
    (hp : ln (ρ p) i = some s) (hq : ln (ρ q) i = some t) :
    ((env.const p).isSome = true ∧ c.lanes[i]? = some s ∧ env.const p = some c) ∨
    (env.const p = none ∧ c.lanes[i]? = some t ∧ env.const q = some c) := by
  have h1 := constInput_ret he h1
  cases hk : env.const p with
  | none => simp [hk] at h1; exact .inr ⟨rfl, hc.const_lane hq h1.symm, h1.symm⟩
  | some k => simp [hk] at h1; subst h1; exact .inl ⟨rfl, hc.const_lane hp hk, rfl⟩

/-- Commutative operations. -/
theorem view_fadd (hc : Consistent env ρ) (h : raw .fadd ty (e.args.map ρ) i = .ok s)
    (h1 : env.constInput e = .ret (some c)) (h2 : env.nonConst e = .ret x) :
    ∃ a b, ln (ρ x) i = some (.f a) ∧ c.lanes[i]? = some (.f b) ∧ s = .f (a + b) := by
  obtain ⟨p, q, a, b, hl, ha, hb, rfl⟩ := inv_fadd h
  rcases constPair hl h1 h2 with ⟨rfl, hp⟩ | ⟨rfl, hp, _⟩
  · exact ⟨b, a, hb, hc.const_lane ha hp, by congr 1; grind⟩
  · exact ⟨a, b, ha, hc.const_lane hb hp, rfl⟩

theorem view_fmul (hc : Consistent env ρ) (h : raw .fmul ty (e.args.map ρ) i = .ok s)
    (h1 : env.constInput e = .ret (some c)) (h2 : env.nonConst e = .ret x) :
    ∃ a b, ln (ρ x) i = some (.f a) ∧ c.lanes[i]? = some (.f b) ∧ s = .f (a * b) := by
  obtain ⟨p, q, a, b, hl, ha, hb, rfl⟩ := inv_fmul h
  rcases constPair hl h1 h2 with ⟨rfl, hp⟩ | ⟨rfl, hp, _⟩
  · exact ⟨b, a, hb, hc.const_lane ha hp, by congr 1; grind⟩
  · exact ⟨a, b, ha, hc.const_lane hb hp, rfl⟩

theorem view_iadd (hc : Consistent env ρ) (h : raw .iadd ty (e.args.map ρ) i = .ok s)
    (h1 : env.constInput e = .ret (some c)) (h2 : env.nonConst e = .ret x) :
    ∃ w a b, ln (ρ x) i = some (.i w a) ∧ c.lanes[i]? = some (.i w b) ∧ s = .i w (a + b) := by
  obtain ⟨p, q, w, a, b, hl, ha, hb, rfl⟩ := inv_iadd h
  rcases constPair hl h1 h2 with ⟨rfl, hp⟩ | ⟨rfl, hp, _⟩
  · exact ⟨w, b, a, hb, hc.const_lane ha hp, by rw [BitVec.add_comm]⟩
  · exact ⟨w, a, b, ha, hc.const_lane hb hp, rfl⟩

theorem view_imul (hc : Consistent env ρ) (h : raw .imul ty (e.args.map ρ) i = .ok s)
    (h1 : env.constInput e = .ret (some c)) (h2 : env.nonConst e = .ret x) :
    ∃ w a b, ln (ρ x) i = some (.i w a) ∧ c.lanes[i]? = some (.i w b) ∧ s = .i w (a * b) := by
  obtain ⟨p, q, w, a, b, hl, ha, hb, rfl⟩ := inv_imul h
  rcases constPair hl h1 h2 with ⟨rfl, hp⟩ | ⟨rfl, hp, _⟩
  · exact ⟨w, b, a, hb, hc.const_lane ha hp, by rw [BitVec.mul_comm]⟩
  · exact ⟨w, a, b, ha, hc.const_lane hb hp, rfl⟩

theorem view_and (hc : Consistent env ρ) (h : raw .and ty (e.args.map ρ) i = .ok s)
    (h1 : env.constInput e = .ret (some c)) (h2 : env.nonConst e = .ret x) :
    ∃ w a b, ln (ρ x) i = some (.i w a) ∧ c.lanes[i]? = some (.i w b) ∧ s = .i w (a &&& b) := by
  obtain ⟨p, q, w, a, b, hl, ha, hb, rfl⟩ := inv_and h
  rcases constPair hl h1 h2 with ⟨rfl, hp⟩ | ⟨rfl, hp, _⟩
  · exact ⟨w, b, a, hb, hc.const_lane ha hp, by rw [BitVec.and_comm]⟩
  · exact ⟨w, a, b, ha, hc.const_lane hb hp, rfl⟩

theorem view_or (hc : Consistent env ρ) (h : raw .or ty (e.args.map ρ) i = .ok s)
    (h1 : env.constInput e = .ret (some c)) (h2 : env.nonConst e = .ret x) :
    ∃ w a b, ln (ρ x) i = some (.i w a) ∧ c.lanes[i]? = some (.i w b) ∧ s = .i w (a ||| b) := by
  obtain ⟨p, q, w, a, b, hl, ha, hb, rfl⟩ := inv_or h
  rcases constPair hl h1 h2 with ⟨rfl, hp⟩ | ⟨rfl, hp, _⟩
  · exact ⟨w, b, a, hb, hc.const_lane ha hp, by rw [BitVec.or_comm]⟩
  · exact ⟨w, a, b, ha, hc.const_lane hb hp, rfl⟩

theorem view_xor (hc : Consistent env ρ) (h : raw .xor ty (e.args.map ρ) i = .ok s)
    (h1 : env.constInput e = .ret (some c)) (h2 : env.nonConst e = .ret x) :
    ∃ w a b, ln (ρ x) i = some (.i w a) ∧ c.lanes[i]? = some (.i w b) ∧ s = .i w (a ^^^ b) := by
  obtain ⟨p, q, w, a, b, hl, ha, hb, rfl⟩ := inv_xor h
  rcases constPair hl h1 h2 with ⟨rfl, hp⟩ | ⟨rfl, hp, _⟩
  · exact ⟨w, b, a, hb, hc.const_lane ha hp, by rw [BitVec.xor_comm]⟩
  · exact ⟨w, a, b, ha, hc.const_lane hb hp, rfl⟩

/-- The defining instruction of an operand with a value. -/
theorem Consistent.def' (hc : Consistent env ρ) (hs : ln (ρ x) i = some s) {op : Op}
    (he : (env.get x).op = op) (hx : op.exact = true) :
    raw op (env.get x).ty ((env.get x).args.map ρ) i = .ok s := by
  have := hc.def_ok hs (by rw [he]; exact hx)
  rwa [he] at this

end Verif.Rules

namespace Verif.Rules
variable {F : Type} [FloatSem F] [DecidableEq F] {env : Env F} {ρ : Id → Option (Val F)}
  {i : Nat} {s t : SV F} {d e : Inst} {c : Const F} {x y p q : Id} {ty : Ty}

theorem hasFloat_f {t : Ty} {a : F} (h : SV.hasTy t.base (.f a) = true) : t.hasFloat = true := by
  unfold SV.hasTy at h; unfold Ty.hasFloat; cases hb : t.base <;> simp_all

theorem hasFloat_i {t : Ty} {w : Nat} {a : BitVec w} (h : SV.hasTy (F := F) t.base (.i w a) = true) :
    t.hasFloat = false := by
  unfold SV.hasTy at h; unfold Ty.hasFloat; cases hb : t.base <;> simp_all

theorem hasTy_f {b : Base} {x y : F} (h : SV.hasTy b (.f x) = true) : SV.hasTy b (.f y) = true := by
  cases b <;> simp_all [SV.hasTy]

theorem hasTy_i {b : Base} {w : Nat} {x y : BitVec w} (h : SV.hasTy (F := F) b (.i w x) = true) :
    SV.hasTy (F := F) b (.i w y) = true := by
  cases b <;> simp_all [SV.hasTy]

theorem hasTy_b {b : Base} {x y : Bool} (h : SV.hasTy (F := F) b (.b x) = true) :
    SV.hasTy (F := F) b (.b y) = true := by
  cases b <;> simp_all [SV.hasTy]

/-- With one added instruction whose lanes are known. -/
theorem refines1' {n : Op × List (Ref F)} {op : Op} {as : List (Ref F)}
    (h : ∀ ρ, Consistent env ρ → ∀ i, i < d.ty.n → lane d.op d.ty (d.args.map ρ) i ≠ .ub →
      ∃ t, raw n.1 d.ty (n.2.map (Ref.val ρ [])) i = .ok t ∧ t.hasTy d.ty.base = true ∧
      ∀ ν, ν.length = d.ty.n → ν[i]? = some t →
        Le (raw d.op d.ty (d.args.map ρ) i) (raw op d.ty (as.map (Ref.val ρ [ν])) i)) :
    Refines env d ⟨[n], op, as⟩ := by
  obtain ⟨o, os⟩ := n
  apply refines1
  intro ρ hc i hi hu
  obtain ⟨t, hr, ht, hf⟩ := h ρ hc i hi hu
  refine ⟨by simp [lane, hr, R.check, ht], fun ν s hn hs ha => ?_⟩
  simp [lane, hr, R.check, ht, R.allows] at ha
  subst ha
  exact hf ν hn hs

end Verif.Rules
