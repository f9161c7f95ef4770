import Verif.Rules.Table

/-!
# The algebraic rules are right, except where they are not

`rules_right_partial` is about every instruction, every program around it and every execution: what
the table of rules makes of the instruction never has undefined behaviour the instruction did not
have, and computes a value it could have computed.  Three patterns with division are excluded; they
are wrong in the code, as `negated_quotient_wrong`, `double_negative_quotient_wrong` and
`select_division_wrong` show.
-/
namespace Verif.Rules
section
variable {F : Type} [FloatSem F] [DecidableEq F]

/-- Instructions that are neither divisions nor integer negations: whatever the rules make of them
is right, in every execution. -/
theorem rules_right {env : Env F} {d : Inst} {new : New F} (hw : WellFormed env d)
    (hop : d.op ∉ [Op.sdiv, .udiv, .fdiv, .sneg]) (h : applyRules env d = .ret new) :
    Refines env d new := by
  intro ρ hc
  obtain ⟨r, hr, hn⟩ := firstRule_ret h
  simp only [List.mem_cons, List.not_mem_nil, or_false, not_or] at hop
  refine rule_right hw hr hn (fun h => absurd h.1 hop.2.2.2) (fun h => ?_) hc (fun h => absurd h hop.1)
  have hd := h.1
  revert hd hop
  cases d.op <;> simp [Op.division]

/-- All instructions.  What is missing: the negation of a signed quotient by (or of) the least
integer, or by 1; a division of or by a select, if the folder does not make a constant of both
alternatives; a signed quotient of two negations whose dividend is the least integer. -/
theorem rules_right_partial {env : Env F} {d : Inst} {new : New F} (hw : WellFormed env d)
    (h : applyRules env d = .ret new)
    (h1 : NegatedQuotient env d → ∀ x, d.args = [x] → NegDivSafe env (env.get x))
    (h2 : SelectDivision env d → new.adds = [])
    {ρ : Id → Option (Val F)} (hc : Consistent env ρ)
    (h3 : d.op = .sdiv → ∀ l x, d.args[0]? = some l → (env.get l).op = .sneg →
      (env.get l).args[0]? = some x → ∀ i w, ln (ρ x) i ≠ some (.i w (BitVec.intMin w))) :
    RightAt ρ d new := by
  obtain ⟨r, hr, hn⟩ := firstRule_ret h
  exact rule_right hw hr hn h1 h2 hc h3

end

/-! ## Concrete modules -/

/-- Rational numbers as floating-point numbers. -/
instance : FloatSem Rat where
  cmp a b := if a < b then .lt else if a = b then .eq else .gt
  fmod a b := if b = 0 then 0 else a - b * (a / b).floor
  fmod_zero b := by
    split
    · rfl
    · have h : (0 : Rat) / b = 0 := by rw [Rat.div_def, Rat.zero_mul]
      have h0 : (0 : Rat).floor = 0 := rfl
      rw [h, h0]; grind

/-- A module given by the definitions and constants of some ids. -/
def mod (defs : List (Id × Inst)) (consts : List (Id × Const Rat)) : Env Rat where
  get x := (defs.lookup x).getD ⟨.other 0, ((consts.lookup x).map Const.ty).getD ⟨.int 32 true, none⟩, [], true⟩
  const x := consts.lookup x
  uses _ := 1
  room := 100
  v14 := true
  valid _ := true
  fold _ _ _ _ := none

def resultB (op : Op) (ty : Ty) (args : List (Option (Val Rat))) (v : Val Rat) : Bool :=
  v.length == ty.n && (List.range ty.n).all fun i =>
    match v[i]?, lane op ty args i with
    | none, _ => false
    | some _, .ub => false
    | some s, .any => s.hasTy ty.base
    | some s, .undef _ => s.hasTy ty.base
    | some s, .ok u => decide (s = u)

theorem resultB_right {op : Op} {ty : Ty} {args : List (Option (Val Rat))} {v : Val Rat}
    (h : resultB op ty args v = true) : Result op ty args v := by
  simp only [resultB, Bool.and_eq_true, beq_iff_eq, List.all_eq_true, List.mem_range] at h
  refine ⟨h.1, fun i hi => ?_⟩
  have := h.2 i hi
  cases hv : v[i]? with
  | none => simp [hv] at this
  | some s =>
    refine ⟨s, rfl, ?_⟩
    cases hl : lane op ty args i <;> simp [hv, hl] at this <;> simp [R.allows, this]

/-- The values of an execution, given for some ids. -/
def vals (l : List (Id × Val Rat)) (x : Id) : Option (Val Rat) := l.lookup x

def consistentB (env : Env Rat) (l : List (Id × Val Rat)) : Bool :=
  l.all fun (x, v) => (match env.const x with | none => true | some c => decide (v = c.lanes)) &&
    resultB (env.get x).op (env.get x).ty ((env.get x).args.map (vals l)) v

theorem mem_of_lookup {α : Type} {l : List (Nat × α)} {x : Nat} {v : α} (h : l.lookup x = some v) :
    (x, v) ∈ l := by
  induction l with
  | nil => cases h
  | cons p l ih =>
    obtain ⟨y, w⟩ := p
    by_cases hxy : x = y
    · subst hxy; simp [List.lookup] at h; subst h; exact List.mem_cons_self
    · rw [List.lookup_cons] at h
      have : (x == y) = false := by simpa using hxy
      rw [this] at h
      exact List.mem_cons_of_mem _ (ih h)

theorem consistentB_right {env : Env Rat} {l : List (Id × Val Rat)} (h : consistentB env l = true) :
    Consistent env (vals l) := by
  have key : ∀ x v, vals l x = some v → _ := fun x v hv => List.all_eq_true.1 h (x, v) (mem_of_lookup hv)
  constructor
  · intro x v c hv hc
    have := key x v hv
    simp only [hc, Bool.and_eq_true, decide_eq_true_eq] at this
    exact this.1
  · intro x v hv
    have := key x v hv
    simp only [Bool.and_eq_true] at this
    exact resultB_right this.2

instance (op : Op) (ty : Ty) (args : List (Option (Val Rat))) : Decidable (UB op ty args) :=
  inferInstanceAs (Decidable (∃ i, i < ty.n ∧ _))

theorem mod_fold (defs : List (Id × Inst)) (consts : List (Id × Const Rat)) :
    FoldRight (mod defs consts) := by
  intro op ty a b c h; cases h

abbrev int : Ty := ⟨.int 32 true, none⟩
abbrev long : Ty := ⟨.int 64 true, none⟩
abbrev flt : Ty := ⟨.float 32, none⟩
abbrev flt2 : Ty := ⟨.float 32, some 2⟩
abbrev boolTy : Ty := ⟨.bool, none⟩

/-- A 32-bit integer constant. -/
abbrev k32 (v : BitVec 32) : Const Rat := .sc (.int 32 true v)

/-- A scalar instruction on known operands. -/
theorem shaped_mod {defs : List (Id × Inst)} {consts : List (Id × Const Rat)} {d : Inst}
    (h : d.args.all (fun x => decide (((mod defs consts).get x).ty.n = d.ty.n)) = true)
    (hv : d.op ≠ .vts) : Shaped (mod defs consts) d := by
  intro k x hx _
  have := List.all_eq_true.1 h x (List.mem_of_getElem? hx)
  simp [hv]; simpa using this

theorem vec_mod {defs : List (Id × Inst)} {consts : List (Id × Const Rat)}
    (h : consts.all (fun p => match p.2 with
      | .vec _ cs => decide (2 ≤ cs.length ∧ 2 * cs.length < 2 ^ 32) | _ => true) = true) :
    VecOk (mod defs consts) := by
  intro x b cs hx
  have := List.all_eq_true.1 h (x, _) (mem_of_lookup hx)
  simpa using this

/-- `(x + 5) + 7`. -/
def addEnv : Env Rat := mod [(4, ⟨.iadd, int, [3, 1], true⟩)] [(1, k32 5), (2, k32 7)]
def addInst : Inst := ⟨.iadd, int, [4, 2], true⟩

/-- It becomes `x + 12`; the premises of `rules_right` hold, and there are executions. -/
example : WellFormed addEnv addInst ∧ addInst.op ∉ [Op.sdiv, .udiv, .fdiv, .sneg] ∧
    applyRules addEnv addInst = .ret ⟨[], .iadd, [.id 3, .c (k32 12)]⟩ ∧
    Consistent addEnv (vals [(1, [.i 32 5]), (2, [.i 32 7]), (3, [.i 32 10]), (4, [.i 32 15])]) ∧
    ¬ UB addInst.op addInst.ty (addInst.args.map
      (vals [(1, [.i 32 5]), (2, [.i 32 7]), (3, [.i 32 10]), (4, [.i 32 15])])) := by
  refine ⟨⟨shaped_mod (by decide) (by decide), vec_mod (by decide), mod_fold _ _⟩, by decide,
    by decide +kernel, consistentB_right (by decide +kernel), by decide +kernel⟩

/-- `c ? (2, 3) : (4, 5)` times `(10, 10)` on vectors of floats: with two added instructions. -/
def selEnv : Env Rat := mod [(5, ⟨.select, flt2, [4, 1, 2], true⟩), (4, ⟨.other 7, boolTy, [], true⟩)]
  [(1, .vec (.float 32) [.float 32 2, .float 32 3]), (2, .vec (.float 32) [.float 32 4, .float 32 5]),
   (3, .vec (.float 32) [.float 32 10, .float 32 10])]
def selInst : Inst := ⟨.fmul, flt2, [5, 3], true⟩

example : WellFormed selEnv selInst ∧ selInst.op ∉ [Op.sdiv, .udiv, .fdiv, .sneg] ∧
    applyRules selEnv selInst = .ret ⟨[(.fmul, [.id 1, .id 3]), (.fmul, [.id 2, .id 3])], .select,
      [.id 4, .new 0, .new 1]⟩ ∧
    Consistent selEnv (vals [(1, [.f 2, .f 3]), (2, [.f 4, .f 5]), (3, [.f 10, .f 10]), (4, [.b false]),
      (5, [.f 4, .f 5])]) := by
  refine ⟨⟨shaped_mod (by decide) (by decide), vec_mod (by decide), mod_fold _ _⟩, by decide,
    by decide +kernel, consistentB_right (by decide +kernel)⟩

/-- `-(x / 3)` becomes `x / -3`: the premises of `rules_right_partial` hold. -/
example : applyRules (mod [(4, ⟨.sdiv, int, [3, 1], true⟩)] [(1, k32 3)]) ⟨.sneg, int, [4], true⟩ =
      .ret ⟨[], .sdiv, [.id 3, .c (k32 (-3))]⟩ ∧
    NegDivSafe (mod [(4, ⟨.sdiv, int, [3, 1], true⟩)] [(1, k32 3)]) ⟨.sdiv, int, [3, 1], true⟩ := by
  refine ⟨by decide +kernel, ?_⟩
  rintro p q h; injection h with h1 h2; injection h2 with h2 h3; subst h1; subst h2
  refine ⟨fun c hc => by simp [mod, List.lookup] at hc, fun c _ hc i w v hv => ?_⟩
  have : c = k32 3 := by simpa [mod, List.lookup] using hc.symm
  subst this
  rcases i with _ | i <;> simp [Const.lanes, SC.val] at hv
  obtain ⟨rfl, hv⟩ := hv
  have := eq_of_heq hv; subst this; decide

/-! ## Where the rules are wrong -/

/-- `MergeNegateMulDivArithmetic` moves the negation of a signed quotient into the constant:
`-(x / c)` becomes `x / -c`.  For the least integer as `c` and as `x` this gives 1 instead of -1. -/
theorem negated_quotient_wrong :
    ∃ (env : Env Rat) (d : Inst) (new : New Rat) (ρ : Id → Option (Val Rat)),
      WellFormed env d ∧ applyRules env d = .ret new ∧ Consistent env ρ ∧ ¬ RightAt ρ d new := by
  refine ⟨mod [(4, ⟨.sdiv, int, [3, 1], true⟩)] [(1, k32 0x80000000#32)], ⟨.sneg, int, [4], true⟩,
    ⟨[], .sdiv, [.id 3, .c (k32 0x80000000#32)]⟩,
    vals [(1, [.i 32 0x80000000#32]), (3, [.i 32 0x80000000#32]), (4, [.i 32 1])],
    ⟨shaped_mod (by decide) (by decide), vec_mod (by decide), mod_fold _ _⟩, by decide +kernel,
    consistentB_right (by decide +kernel), fun h => ?_⟩
  have := (h (by decide +kernel)).2 [.i 32 1] (resultB_right (by decide +kernel))
  have := this.2 0 (by decide)
  obtain ⟨s, hs, ha⟩ := this
  have : s = .i 32 1 := by simpa using hs.symm
  subst this
  revert ha
  have : lane .sneg int ([4].map (vals [(1, [.i 32 0x80000000#32]), (3, [.i 32 0x80000000#32]), (4, [.i 32 1])])) 0
    = .ok (.i 32 (-1)) := by decide +kernel
  rw [this]
  simp only [R.allows]
  decide

/-- `-(x / 1)` becomes `x / -1`, which has undefined behaviour for the least integer, where the old
code has none. -/
theorem negated_quotient_ub :
    ∃ (env : Env Rat) (d : Inst) (new : New Rat) (ρ : Id → Option (Val Rat)),
      WellFormed env d ∧ applyRules env d = .ret new ∧ new.adds = [] ∧ Consistent env ρ ∧
      ¬ UB d.op d.ty (d.args.map ρ) ∧ UB new.op d.ty (new.args.map (Ref.val ρ [])) := by
  refine ⟨mod [(4, ⟨.sdiv, int, [3, 1], true⟩)] [(1, k32 1)], ⟨.sneg, int, [4], true⟩,
    ⟨[], .sdiv, [.id 3, .c (k32 (-1))]⟩,
    vals [(1, [.i 32 1]), (3, [.i 32 0x80000000#32]), (4, [.i 32 0x80000000#32])],
    ⟨shaped_mod (by decide) (by decide), vec_mod (by decide), mod_fold _ _⟩, by decide +kernel, rfl,
    consistentB_right (by decide +kernel), by decide +kernel, by decide +kernel⟩

/-- `MergeDivMulDoubleNegative`: `(-x) / (-y)` becomes `x / y`.  For the least integer as `x` and
-1 as `y` the old code gives the least integer and the new one has undefined behaviour. -/
theorem double_negative_quotient_wrong :
    ∃ (env : Env Rat) (d : Inst) (new : New Rat) (ρ : Id → Option (Val Rat)),
      WellFormed env d ∧ applyRules env d = .ret new ∧ new.adds = [] ∧ Consistent env ρ ∧
      ¬ UB d.op d.ty (d.args.map ρ) ∧ UB new.op d.ty (new.args.map (Ref.val ρ [])) := by
  refine ⟨mod [(4, ⟨.sneg, int, [2], true⟩), (5, ⟨.sneg, int, [3], true⟩)] [], ⟨.sdiv, int, [4, 5], true⟩,
    ⟨[], .sdiv, [.id 2, .id 3]⟩,
    vals [(2, [.i 32 0x80000000#32]), (3, [.i 32 (-1)]), (4, [.i 32 0x80000000#32]), (5, [.i 32 1])],
    ⟨shaped_mod (by decide) (by decide), vec_mod (by decide), mod_fold _ _⟩, by decide +kernel, rfl,
    consistentB_right (by decide +kernel), by decide +kernel, by decide +kernel⟩

/-- `MergeBinaryOpSelect`: `8 / (c ? 2 : 0)` becomes `c ? 8 / 2 : 8 / 0`, with both divisions
executed, when the folder makes no constants of them (64-bit integers). -/
theorem select_division_wrong :
    ∃ (env : Env Rat) (d : Inst) (new : New Rat) (ρ : Id → Option (Val Rat)),
      WellFormed env d ∧ applyRules env d = .ret new ∧ Consistent env ρ ∧ ¬ RightAt ρ d new := by
  refine ⟨mod [(5, ⟨.select, long, [4, 2, 3], true⟩), (4, ⟨.other 7, boolTy, [], true⟩)]
      [(1, .sc (.int 64 true 8)), (2, .sc (.int 64 true 2)), (3, .sc (.int 64 true 0))],
    ⟨.udiv, long, [1, 5], true⟩,
    ⟨[(.udiv, [.id 1, .id 2]), (.udiv, [.id 1, .id 3])], .select, [.id 4, .new 0, .new 1]⟩,
    vals [(1, [.i 64 8]), (2, [.i 64 2]), (3, [.i 64 0]), (4, [.b true]), (5, [.i 64 2])],
    ⟨shaped_mod (by decide) (by decide), vec_mod (by decide), mod_fold _ _⟩, by decide +kernel,
    consistentB_right (by decide +kernel), fun h => ?_⟩
  have h := (h (by decide +kernel)).2 [.i 64 4] (resultB_right (by decide +kernel))
  exact h.1 (by decide +kernel)

/-- `ReassociateNestedMulDivFloat` takes the reciprocal of a vector constant, which asserts that
constants are scalar: `(v / (2, 2)) * (v * (3, 3))`. -/
theorem reassociate_vector_fault :
    ∃ (env : Env Rat) (d : Inst), WellFormed env d ∧ applyRules env d = .fault := by
  refine ⟨mod [(3, ⟨.other 7, flt2, [], true⟩), (4, ⟨.fdiv, flt2, [3, 1], true⟩),
      (5, ⟨.fmul, flt2, [3, 2], true⟩)]
      [(1, .vec (.float 32) [.float 32 2, .float 32 2]), (2, .vec (.float 32) [.float 32 3, .float 32 3])],
    ⟨.fmul, flt2, [4, 5], true⟩,
    ⟨shaped_mod (by decide) (by decide), vec_mod (by decide), mod_fold _ _⟩, by decide +kernel⟩

/-- `MergeDivNegateArithmetic` does not look at the width: on 16-bit floats the assertion in
`NegateFloatingPointConstant` fails. -/
theorem div_negate_half_fault :
    ∃ (env : Env Rat) (d : Inst), WellFormed env d ∧ applyRules env d = .fault := by
  refine ⟨mod [(3, ⟨.other 7, ⟨.float 16, none⟩, [], true⟩), (4, ⟨.fneg, ⟨.float 16, none⟩, [3], true⟩)]
      [(1, .sc (.float 16 3))],
    ⟨.fdiv, ⟨.float 16, none⟩, [4, 1], true⟩,
    ⟨shaped_mod (by decide) (by decide), vec_mod (by decide), mod_fold _ _⟩, by decide +kernel⟩

/-- `RedundantBinaryOpWithZeroOperand` compares the result type with the type of the zero, not with
that of the operand it keeps: an `OpIAdd` of an unsigned type on a signed operand and an unsigned
zero becomes an `OpCopyObject` whose operand has another type than the result. -/
theorem redundant_zero_ill_typed :
    ∃ (env : Env Rat) (d : Inst) (x : Id), WellFormed env d ∧
      applyRules env d = .ret ⟨[], .copy, [.id x]⟩ ∧ (env.get x).ty ≠ d.ty := by
  refine ⟨mod [(3, ⟨.other 7, int, [], true⟩)] [(1, .sc (.int 32 false 0))],
    ⟨.iadd, ⟨.int 32 false, none⟩, [3, 1], true⟩, 3,
    ⟨shaped_mod (by decide) (by decide), vec_mod (by decide), mod_fold _ _⟩, by decide +kernel, by decide⟩

/-- `MergeMulDivArithmetic` does not ask whether the division may be contracted: `(a / b) * b`
becomes `a` although the division is decorated `NoContraction`. -/
theorem mul_div_ignores_no_contraction :
    ∃ (env : Env Rat) (d : Inst) (x y : Id), WellFormed env d ∧ y ∈ d.args ∧
      (env.get y).fp = false ∧ applyRules env d = .ret ⟨[], .copy, [.id x]⟩ := by
  refine ⟨mod [(2, ⟨.other 7, flt, [], true⟩), (3, ⟨.other 7, flt, [], true⟩), (4, ⟨.fdiv, flt, [2, 3], false⟩)] [],
    ⟨.fmul, flt, [4, 3], true⟩, 2, 4,
    ⟨shaped_mod (by decide) (by decide), vec_mod (by decide), mod_fold _ _⟩, by decide, by decide,
    by decide +kernel⟩

end Verif.Rules
