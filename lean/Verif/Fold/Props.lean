import Verif.Fold.NoFault

/-!
# Folding to a constant: properties

The specification is in `Verif/Fold/Spec.lean`.
-/

set_option linter.unusedSimpArgs false

namespace Verif.Fold

open Spec

/-! ## C26: the evaluator on 32-bit words and booleans -/

/-- The opcodes `UnaryOperate`, `BinaryOperate` and `TernaryOperate` know. -/
def evaluatedOps : List Op :=
  [.sNegate, .not, .logicalNot, .uConvert, .sConvert,
   .shiftRightLogical, .shiftRightArithmetic, .shiftLeftLogical, .bitwiseOr, .bitwiseAnd,
   .bitwiseXor, .logicalEqual, .logicalNotEqual, .logicalOr, .logicalAnd, .iEqual, .iNotEqual,
   .uLessThan, .sLessThan, .uGreaterThan, .sGreaterThan, .uLessThanEqual, .sLessThanEqual,
   .uGreaterThanEqual, .sGreaterThanEqual, .select]

theorem mem_evaluatedOps (op : Op) : op ∈ evaluatedOps ↔ op.evaluated = true := by
  cases op <;> decide

/-- C26.  Whatever the evaluator produces, with all operands constant or only some, has the value
SPIR-V prescribes, in every execution consistent with the known constants: an unknown operand may
have any value. -/
theorem scalarFold_sound {i : Instr} (hw : WellTyped i) {c : Const}
    (h : foldByWords i = some (some c)) : ∀ ρ, Consistent i ρ → Replaces i ρ c :=
  fun _ hc => foldByWords_final hw hc h

/-- C26.  On scalar operands the evaluator neither faults nor declines when all operands are
constants of foldable types, and it does not fault when a constant is missing.  Shift amounts,
divisors and so on are arbitrary. -/
theorem scalarFold_total {i : Instr} {ρ : Nat → Val} (hw : WellTyped i) (hc : Consistent i ρ)
    {t : STy} (hty : i.ty = .scalar t) (hop : i.op ∈ evaluatedOps ∨ allConsts i.args = none) :
    (foldByWords i).isSome ∧
    (i.byScalar = true → (∀ o ∈ i.args, o.const.isSome) → ∃ c, foldByWords i = some (some c)) := by
  have hn : ∀ o ∈ i.args, i.byScalar = true → ∀ t cs, o.const = some (.vec t cs) → False := by
    intro o ho hb t' cs hoc
    have hsh := ((by_shape hw (Or.inl hb)).2 o ho).1
    have := ((hc o ho).2.1 _ hoc).1
    rw [hty] at hsh
    match hot : o.ty with
    | .scalar _ => rw [hot] at this; cases this
    | .vec .. => rw [hot] at hsh; cases hsh
  by_cases hb : i.byScalar = true
  · have h1 := foldByWords_some hw hc (fun o ho t cs h => (hn o ho hb t cs h).elim) (by
      rcases hop with h | h
      · exact Or.inl ((mem_evaluatedOps _).mp h)
      · exact Or.inr (Or.inr h))
    refine ⟨h1, fun _ hall => ?_⟩
    obtain ⟨cs, hcs⟩ := Option.isSome_iff_exists.mp
      (mapM_isSome (f := fun o : Operand => o.const) hall)
    have hcs' : allConsts i.args = some cs := hcs
    revert h1
    simp only [foldByWords, hty, hb, if_true, hcs']
    cases foldScalars i.op cs with
    | none => intro h; cases h
    | some v => intro _; exact ⟨_, rfl⟩
  · refine ⟨?_, fun h => absurd h hb⟩
    simp [foldByWords, hty, hb]

/-! ## C27: folding an instruction -/

/-- C27 (partial).  When folding produces a constant, that constant has the result type and the
value SPIR-V prescribes, for every opcode of the model, every width 8, 16, 32, 64, scalars and
vectors, all operand values, any subset of the operands being constant.  Missing: the cases listed
in `Spec.Avoids`; in each of them the folder is wrong, see the theorems below. -/
theorem foldToConstant_sound_partial {i : Instr} (hw : WellTyped i) {c : Const}
    (h : foldToConstant i = some (some c)) :
    ∀ ρ, Consistent i ρ → Avoids i ρ → Replaces i ρ c := by
  intro ρ hc ha
  unfold foldToConstant at h
  split at h
  · cases h
  · rename_i c' hr
    cases h
    obtain ⟨r, hm, hrc⟩ := tryRules_mem hr
    cases hop : i.op <;> rw [hop] at hm <;> simp [constRules] at hm
    case sNegate => subst hm; exact negate_final hw hc ha hop hrc
    case uConvert => subst hm; exact (convert_final hw hc ha).2 hop hrc
    case sConvert => subst hm; exact (convert_final hw hc ha).1 hop hrc
    case select => subst hm; exact select_final hw hc hop hrc
    case iSub =>
      rcases hm with rfl | rfl
      · rw [← hop] at hrc
        exact arith_final hw hc ha (by simp [Op.arith, hop]) hrc
      · exact redundantSub_final hw hc hop hrc
    case uDiv =>
      rcases hm with rfl | rfl
      · rw [← hop] at hrc
        exact arith_final hw hc ha (by simp [Op.arith, hop]) hrc
      · exact redundantDiv_final hw hc ha (Or.inl hop) hrc
    case sDiv =>
      rcases hm with rfl | rfl
      · rw [← hop] at hrc
        exact arith_final hw hc ha (by simp [Op.arith, hop]) hrc
      · exact redundantDiv_final hw hc ha (Or.inr hop) hrc
    case sMin => subst hm; exact minmax_final hw hc ha (by simp [Op.minmax, hop]) (Or.inl ⟨by simp [hop], hrc⟩)
    case uMin => subst hm; exact minmax_final hw hc ha (by simp [Op.minmax, hop]) (Or.inl ⟨by simp [hop], hrc⟩)
    case sMax => subst hm; exact minmax_final hw hc ha (by simp [Op.minmax, hop]) (Or.inr ⟨by simp [hop], hrc⟩)
    case uMax => subst hm; exact minmax_final hw hc ha (by simp [Op.minmax, hop]) (Or.inr ⟨by simp [hop], hrc⟩)
    case sClamp =>
      refine clampRules_final hw hc ha (by simp [hop]) ?_
      rcases hm with rfl | rfl | rfl <;> simp [hrc]
    case uClamp =>
      refine clampRules_final hw hc ha (by simp [hop]) ?_
      rcases hm with rfl | rfl | rfl <;> simp [hrc]
    all_goals
      subst hm
      rw [← hop] at hrc
      exact arith_final hw hc ha (by simp [Op.arith, hop]) hrc
  · exact foldByWords_final hw hc h

/-- C27 (partial).  Folding executes no undefined host behaviour and trips no assertion, outside
the cases of `Spec.Safe`; in each of them it does, see the theorems below. -/
theorem foldToConstant_safe_partial {i : Instr} {ρ : Nat → Val} (hw : WellTyped i)
    (hc : Consistent i ρ) (hs : Safe i ρ) : (foldToConstant i).isSome :=
  foldToConstant_some hw hc hs

/-! ## The exclusions are necessary -/

section Counterexamples

instance (c : SConst) (u : SVal) : Decidable (SDenotes c u) := by
  unfold SDenotes; split <;> infer_instance

instance (u : SVal) (t : STy) : Decidable (HasSTy u t) := by
  unfold HasSTy; split <;> infer_instance

/-- An operand that is a known scalar constant. -/
def known (id : Nat) (c : SConst) : Operand :=
  { id := id, ty := .scalar c.ty, const := some (.scalar c), negOf := none }

theorem known_ok {id : Nat} {c : SConst} {ρ : Nat → Val} {u : SVal}
    (hρ : ρ id = [u]) (hd : SDenotes c u) (ht : HasSTy u c.ty) :
    HasTy (ρ (known id c).id) (known id c).ty ∧
    (∀ c', (known id c).const = some c' → ConstHasTy c' (known id c).ty ∧
      Denotes c' (ρ (known id c).id)) ∧
    (∀ j, (known id c).negOf = some j → ρ (known id c).id = negVal (ρ j)) := by
  refine ⟨⟨by simp [known, hρ, dim], ?_⟩, ?_, ?_⟩
  · intro u' hu'
    simp only [known, hρ, List.mem_singleton] at hu'
    subst hu'; exact ht
  · intro c' hc'
    cases hc'
    exact ⟨rfl, u, hρ, hd⟩
  · intro j hj; cases hj

theorem known_two {op : Op} {ty : Ty} {f : Bool} {c d : SConst} {ρ : Nat → Val} {u v : SVal}
    (hu : ρ 1 = [u]) (hv : ρ 2 = [v]) (h : SDenotes c u ∧ HasSTy u c.ty)
    (h' : SDenotes d v ∧ HasSTy v d.ty) : Consistent ⟨op, ty, [known 1 c, known 2 d], f⟩ ρ := by
  intro o ho
  simp only [List.mem_cons, List.not_mem_nil, or_false] at ho
  rcases ho with rfl | rfl
  · exact known_ok hu h.1 h.2
  · exact known_ok hv h'.1 h'.2

theorem known_one {op : Op} {ty : Ty} {f : Bool} {c : SConst} {ρ : Nat → Val} {u : SVal}
    (hu : ρ 1 = [u]) (h : SDenotes c u ∧ HasSTy u c.ty) :
    Consistent ⟨op, ty, [known 1 c], f⟩ ρ := by
  intro o ho
  simp only [List.mem_cons, List.not_mem_nil, or_false] at ho
  subst ho
  exact known_ok hu h.1 h.2

/-- A scalar constant that does not denote the prescribed value. -/
theorem wrong_scalar {i : Instr} {ρ : Nat → Val} {t : STy} {c : SConst} {us : List SVal} {r : SVal}
    (hty : i.ty = .scalar t) (hus : (i.args.map fun o => ρ o.id).mapM (comp 0) = some us)
    (hr : Spec.scalar i.op t us = some r) (hd : ¬ SDenotes c r) : ¬ Replaces i ρ (.scalar c) := by
  rintro ⟨_, v, ⟨u, rfl, hu⟩, _, hres⟩
  rw [hty] at hres
  have := hres 0 (by simp [dim]) us hus r hr
  cases this
  exact hd hu

/-- The constant of a 32-bit signed integer. -/
abbrev i32 (x : BitVec 32) : SConst := .int 32 true [x]

/-- `4 mod -2` is 0, and is folded to `-2`. -/
theorem smod_wrong : ∃ i ρ c, WellTyped i ∧ Consistent i ρ ∧
    foldToConstant i = some (some c) ∧ ¬ Replaces i ρ c := by
  refine ⟨⟨.sMod, .scalar (.int 32 true), [known 1 (i32 4), known 2 (i32 (-2))], true⟩,
    fun n => if n = 1 then [.int 32 4] else [.int 32 (-2)], .scalar (i32 (-2)),
    ⟨⟨32, true, true, true, by decide, rfl, rfl⟩, by simp [shapeRule, known]⟩,
    known_two rfl rfl (by decide) (by decide), by decide, ?_⟩
  exact wrong_scalar (t := .int 32 true) rfl (us := [.int 32 4, .int 32 (-2)]) rfl
    (r := .int 32 0) (by decide) (by decide)

/-- At an unsigned 8-bit type `OpSDiv` of 254 (that is, `-2`) by 2 is 255 (`-1`), and is folded to
127. -/
theorem sdiv_narrow_wrong : ∃ i ρ c, WellTyped i ∧ Consistent i ρ ∧
    foldToConstant i = some (some c) ∧ ¬ Replaces i ρ c := by
  refine ⟨⟨.sDiv, .scalar (.int 8 false), [known 1 (.int 8 false [254#32]),
      known 2 (.int 8 false [2#32])], true⟩,
    fun n => if n = 1 then [.int 8 254] else [.int 8 2], .scalar (.int 8 false [127#32]),
    ⟨⟨8, false, false, false, by decide, rfl, rfl⟩, by simp [shapeRule, known]⟩,
    known_two rfl rfl (by decide) (by decide), by decide, ?_⟩
  exact wrong_scalar (t := .int 8 false) rfl (us := [.int 8 254, .int 8 2]) rfl
    (r := .int 8 255) (by decide) (by decide)

/-- `OpSConvert` of an unsigned 8-bit constant does not sign-extend. -/
theorem sconvert_narrow_wrong : ∃ i ρ c, WellTyped i ∧ Consistent i ρ ∧
    foldToConstant i = some (some c) ∧ ¬ Replaces i ρ c := by
  refine ⟨⟨.sConvert, .scalar (.int 32 true), [known 1 (.int 8 false [255#32])], true⟩,
    fun _ => [.int 8 255], .scalar (i32 255),
    ⟨⟨32, true, 8, false, by decide, by decide, by decide, rfl, rfl⟩, by simp [shapeRule, known]⟩,
    known_one rfl (by decide), by decide, ?_⟩
  exact wrong_scalar (t := .int 32 true) rfl (us := [.int 8 255]) rfl
    (r := .int 32 (-1)) (by decide) (by decide)

/-- `SMin` of `-1` and `0` at an unsigned type is `-1`, and is folded to 0. -/
theorem smin_unsigned_wrong : ∃ i ρ c, WellTyped i ∧ Consistent i ρ ∧
    foldToConstant i = some (some c) ∧ ¬ Replaces i ρ c := by
  refine ⟨⟨.sMin, .scalar (.int 32 false), [known 1 (.int 32 false [-1#32]),
      known 2 (.int 32 false [0#32])], true⟩,
    fun n => if n = 1 then [.int 32 (-1)] else [.int 32 0], .scalar (.int 32 false [0#32]),
    ⟨⟨32, false, false, false, by decide, rfl, rfl⟩, by simp [shapeRule, known]⟩,
    known_two rfl rfl (by decide) (by decide), by decide, ?_⟩
  exact wrong_scalar (t := .int 32 false) rfl (us := [.int 32 (-1), .int 32 0]) rfl
    (r := .int 32 (-1)) (by decide) (by decide)

/-- `UMax` of `-1` and `0` at a signed type is `-1`, and is folded to 0. -/
theorem umax_signed_wrong : ∃ i ρ c, WellTyped i ∧ Consistent i ρ ∧
    foldToConstant i = some (some c) ∧ ¬ Replaces i ρ c := by
  refine ⟨⟨.uMax, .scalar (.int 32 true), [known 1 (i32 (-1)), known 2 (i32 0)], true⟩,
    fun n => if n = 1 then [.int 32 (-1)] else [.int 32 0], .scalar (i32 0),
    ⟨⟨32, true, true, true, by decide, rfl, rfl⟩, by simp [shapeRule, known]⟩,
    known_two rfl rfl (by decide) (by decide), by decide, ?_⟩
  exact wrong_scalar (t := .int 32 true) rfl (us := [.int 32 (-1), .int 32 0]) rfl
    (r := .int 32 (-1)) (by decide) (by decide)

/-- `-x / x` is folded to `-1` although it is 1 when `x` is the smallest integer (which is its own
negation). -/
theorem sdiv_negation_wrong : ∃ i ρ c, WellTyped i ∧ Consistent i ρ ∧
    foldToConstant i = some (some c) ∧ ¬ Replaces i ρ c := by
  refine ⟨⟨.sDiv, .scalar (.int 32 true),
      [⟨1, .scalar (.int 32 true), none, some 2⟩, ⟨2, .scalar (.int 32 true), none, none⟩], true⟩,
    fun _ => [.int 32 0x80000000#32], .scalar (i32 (-1)),
    ⟨⟨32, true, true, true, by decide, rfl, rfl⟩, by simp [shapeRule]⟩, ?_, by decide, ?_⟩
  · intro o ho
    simp only [List.mem_cons, List.not_mem_nil, or_false] at ho
    rcases ho with rfl | rfl
    · refine ⟨⟨rfl, by simp [HasSTy, elem]⟩, by simp, ?_⟩
      intro j _
      simp [negVal]
    · exact ⟨⟨rfl, by simp [HasSTy, elem]⟩, by simp, by simp⟩
  · exact wrong_scalar (t := .int 32 true) rfl
      (us := [.int 32 0x80000000#32, .int 32 0x80000000#32]) rfl
      (r := .int 32 1) (by decide) (by decide)

/-- Negating a null vector into a vector of the other signedness produces a composite whose
components have the type of the operand, not of the result. -/
theorem snegate_null_vector_wrong : ∃ i ρ c, WellTyped i ∧ Consistent i ρ ∧
    foldToConstant i = some (some c) ∧ ¬ Replaces i ρ c := by
  refine ⟨⟨.sNegate, .vec 2 (.int 32 true),
      [⟨1, .vec 2 (.int 32 false), some (.nullVec 2 (.int 32 false)), none⟩], true⟩,
    fun _ => [.int 32 0, .int 32 0],
    .vec (.int 32 true) [.null (.int 32 false), .null (.int 32 false)],
    ⟨⟨32, true, false, by decide, rfl, rfl⟩, by simp [shapeRule]⟩, ?_, by decide, ?_⟩
  · intro o ho
    simp only [List.mem_singleton] at ho
    subst ho
    refine ⟨⟨rfl, by simp [HasSTy, elem]⟩, ?_, by simp⟩
    intro c hc
    cases hc
    exact ⟨⟨rfl, rfl⟩, rfl, by simp [SDenotes]⟩
  · rintro ⟨⟨_, _, h⟩, _⟩
    have := h (.null (.int 32 false)) (by simp)
    simp [SConst.ty] at this

/-- Folding `INT64_MIN / -1` overflows the host division. -/
theorem sdiv64_faults : ∃ i ρ, WellTyped i ∧ Consistent i ρ ∧ foldToConstant i = none := by
  refine ⟨⟨.sDiv, .scalar (.int 64 true), [known 1 (.int 64 true [0#32, 0x80000000#32]),
      known 2 (.int 64 true [-1#32, -1#32])], true⟩,
    fun n => if n = 1 then [.int 64 0x8000000000000000#64] else [.int 64 (-1)],
    ⟨⟨64, true, true, true, by decide, rfl, rfl⟩, by simp [shapeRule, known]⟩,
    known_two rfl rfl (by decide) (by decide), by decide⟩

/-- Folding the negation of `INT64_MIN` overflows the host negation. -/
theorem snegate64_faults : ∃ i ρ, WellTyped i ∧ Consistent i ρ ∧ foldToConstant i = none := by
  refine ⟨⟨.sNegate, .scalar (.int 64 true), [known 1 (.int 64 true [0#32, 0x80000000#32])], true⟩,
    fun _ => [.int 64 0x8000000000000000#64],
    ⟨⟨64, true, true, by decide, rfl, rfl⟩, by simp [shapeRule, known]⟩,
    known_one rfl (by decide), by decide⟩

/-- Folding an instruction on a vector constant one of whose components is `OpConstantNull` trips
the assertion in `FoldVectors`. -/
theorem null_component_faults : ∃ i ρ, WellTyped i ∧ Consistent i ρ ∧ foldToConstant i = none := by
  refine ⟨⟨.not, .vec 2 (.int 32 true),
      [⟨1, .vec 2 (.int 32 true), some (.vec (.int 32 true) [i32 1, .null (.int 32 true)]), none⟩],
      true⟩,
    fun _ => [.int 32 1, .int 32 0],
    ⟨⟨32, true, true, by decide, rfl, rfl⟩, by simp [shapeRule]⟩, ?_, by decide⟩
  intro o ho
  simp only [List.mem_singleton] at ho
  subst ho
  refine ⟨⟨rfl, by simp [HasSTy, elem]⟩, ?_, by simp⟩
  intro c hc
  cases hc
  refine ⟨⟨rfl, rfl, by simp [SConst.ty]⟩, rfl, ?_⟩
  intro k c u hk hu
  match k with
  | 0 => cases hk; cases hu; decide
  | 1 => cases hk; cases hu; decide
  | k + 2 => simp at hk

end Counterexamples

/-! ## Non-vacuity -/

/-- `(-7) / 2` at 16 bits, all constants. -/
example : ∃ i ρ c, WellTyped i ∧ Consistent i ρ ∧ Avoids i ρ ∧ Safe i ρ ∧
    foldToConstant i = some (some c) ∧ Denotes c [.int 16 (-3)] := by
  refine ⟨⟨.sDiv, .scalar (.int 16 true), [known 1 (.int 16 true [-7#32]),
      known 2 (.int 16 true [2#32])], true⟩,
    fun n => if n = 1 then [.int 16 (-7)] else [.int 16 2], .scalar (.int 16 true [-3#32]),
    ⟨⟨16, true, true, true, by decide, rfl, rfl⟩, by simp [shapeRule, known]⟩,
    known_two rfl rfl (by decide) (by decide), ?_, ?_, by decide, _, rfl, by decide⟩
  · refine ⟨by simp, ?_, by simp, by simp, by simp, ?_⟩
    · intro _ o ho w hw
      simp only [List.mem_cons, List.not_mem_nil, or_false] at ho
      rcases ho with rfl | rfl <;> simp [known, elem, SConst.ty] at hw
    · intro _ x y h
      simp only [List.cons.injEq, and_true] at h
      obtain ⟨rfl, rfl⟩ := h
      simp [known]
  · refine ⟨?_, by simp, ?_⟩
    · intro _ x y h k a b ha
      simp only [List.cons.injEq, and_true] at h
      obtain ⟨rfl, rfl⟩ := h
      match k with
      | 0 => simp [known] at ha
      | k + 1 => simp [known] at ha
    · intro o ho t cs h
      simp only [List.mem_cons, List.not_mem_nil, or_false] at ho
      rcases ho with rfl | rfl <;> simp [known] at h

/-- An unknown operand: `x & 0` is 0 whatever `x` is. -/
example : ∃ i c, WellTyped i ∧ foldByWords i = some (some c) ∧
    (∀ x : BitVec 32, ∃ ρ, Consistent i ρ ∧ ρ 1 = [.int 32 x]) := by
  refine ⟨⟨.bitwiseAnd, .scalar (.int 32 false), [⟨1, .scalar (.int 32 false), none, none⟩,
      known 2 (.int 32 false [0#32])], true⟩, .scalar (.int 32 false [0#32]),
    ⟨⟨32, false, false, false, by decide, rfl, rfl⟩, by simp [shapeRule, known]⟩, by decide, ?_⟩
  intro x
  refine ⟨fun n => if n = 1 then [.int 32 x] else [.int 32 0], ?_, rfl⟩
  intro o ho
  simp only [List.mem_cons, List.not_mem_nil, or_false] at ho
  rcases ho with rfl | rfl
  · exact ⟨⟨rfl, by simp [HasSTy, elem]⟩, by simp, by simp⟩
  · exact known_ok (id := 2) (ρ := fun n => if n = 1 then [.int 32 x] else [.int 32 0])
      (c := .int 32 false [0#32]) (u := .int 32 0) rfl (by decide) (by decide)

end Verif.Fold
