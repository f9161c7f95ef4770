import Verif.Rules.Nested
import Verif.Rules.Div
import Verif.Rules.Bits
import Verif.Rules.Select

set_option linter.unusedSimpArgs false

/-! # Every rule of the table is right -/
namespace Verif.Rules
variable {F : Type} [FloatSem F] [DecidableEq F]

theorem firstRule_ret {env : Env F} {d : Inst} {new : New F} {rs : List Rule}
    (h : firstRule env d rs = .ret new) : ∃ r ∈ rs, r.run env d = .ret new := by
  induction rs with
  | nil => cases h
  | cons r rs ih =>
    unfold firstRule at h
    split at h
    · obtain ⟨r', hr, hn⟩ := ih h
      exact ⟨r', List.mem_cons_of_mem _ hr, hn⟩
    · exact ⟨r, List.mem_cons_self, h⟩

set_option maxHeartbeats 2000000 in
/-- Every rewriting of the table is right, apart from the patterns excluded. -/
theorem rule_right {env : Env F} {d : Inst} {new : New F} (hw : WellFormed env d) {r : Rule}
    (hr : r ∈ rulesFor d.op) (h : r.run env d = .ret new)
    (h1 : NegatedQuotient env d → ∀ x, d.args = [x] → NegDivSafe env (env.get x))
    (h2 : SelectDivision env d → new.adds = [])
    {ρ : Id → Option (Val F)} (hc : Consistent env ρ)
    (h3 : d.op = .sdiv → ∀ l x, d.args[0]? = some l → (env.get l).op = .sneg →
      (env.get l).args[0]? = some x → ∀ i w, ln (ρ x) i ≠ some (.i w (BitVec.intMin w))) :
    RightAt ρ d new := by
  cases r <;> simp only [Rule.run] at h
  case redundantSelect =>
    refine redundantSelect_refines hw.vectors ?_ h ρ hc
    revert hr; cases d.op <;> simp [rulesFor, selectOps]
  case mergeBinaryOpSelect =>
    have hop : d.op ∈ selectOps := by
      revert hr; cases d.op <;> simp [rulesFor, selectOps]
    refine mergeBinaryOpSelect_refines hw.fold hw.shaped hop h ?_ ρ hc
    cases hd : d.op.division
    · exact .inl rfl
    · right
      apply h2 ⟨hd, ?_⟩
      simp only [mergeBinaryOpSelect, bind_ret, need_ret, beq_iff_eq, Env.nonConst, Inst.arg, at?_ret] at h
      obtain ⟨_, _, _, _, x, ⟨_, _, hx⟩, _, he, _⟩ := h
      exact ⟨x, List.mem_of_getElem? hx, he⟩
  case mergeNegateMulDiv =>
    refine mergeNegateMulDiv_refines ?_ ?_ h ρ hc
    · revert hr; cases d.op <;> simp [rulesFor, selectOps]
    · intro x hx hop he
      exact h1 ⟨hop, x, hx, he⟩ x hx
  case mergeDoubleNegative =>
    by_cases hop : d.op = .sdiv
    · exact sdivDoubleNegative_right hop h hc (h3 hop)
    · refine mergeDoubleNegative_refines ?_ h ρ hc
      revert hr hop; cases d.op <;> simp [rulesFor, selectOps]
  case reciprocalFDiv => exact reciprocalFDiv_refines (by revert hr; cases d.op <;> simp [rulesFor, selectOps]) h ρ hc
  case mergeNegate => exact mergeNegate_refines (by revert hr; cases d.op <;> simp [rulesFor, selectOps]) h ρ hc
  case mergeNegateAddSub => exact mergeNegateAddSub_refines (by revert hr; cases d.op <;> simp [rulesFor, selectOps]) h ρ hc
  case mergeMulMul => exact mergeMulMul_refines (by revert hr; cases d.op <;> simp [rulesFor, selectOps]) h ρ hc
  case mergeMulDiv => exact mergeMulDiv_refines (by revert hr; cases d.op <;> simp [rulesFor, selectOps]) h ρ hc
  case mergeMulNegate => exact mergeMulNegate_refines (by revert hr; cases d.op <;> simp [rulesFor, selectOps]) h ρ hc
  case mergeDivDiv => exact mergeDivDiv_refines (by revert hr; cases d.op <;> simp [rulesFor, selectOps]) h ρ hc
  case mergeDivMul => exact mergeDivMul_refines (by revert hr; cases d.op <;> simp [rulesFor, selectOps]) h ρ hc
  case mergeDivNegate => exact mergeDivNegate_refines (by revert hr; cases d.op <;> simp [rulesFor, selectOps]) h ρ hc
  case mergeAddNegate => exact mergeAddNegate_refines (by revert hr; cases d.op <;> simp [rulesFor, selectOps]) h ρ hc
  case mergeSubNegate => exact mergeSubNegate_refines (by revert hr; cases d.op <;> simp [rulesFor, selectOps]) h ρ hc
  case mergeAddAdd => exact mergeAddAdd_refines (by revert hr; cases d.op <;> simp [rulesFor, selectOps]) h ρ hc
  case mergeAddSub => exact mergeAddSub_refines (by revert hr; cases d.op <;> simp [rulesFor, selectOps]) h ρ hc
  case mergeSubAdd => exact mergeSubAdd_refines (by revert hr; cases d.op <;> simp [rulesFor, selectOps]) h ρ hc
  case mergeSubSub => exact mergeSubSub_refines (by revert hr; cases d.op <;> simp [rulesFor, selectOps]) h ρ hc
  case mergeGenericAddSub => exact mergeGenericAddSub_refines (by revert hr; cases d.op <;> simp [rulesFor, selectOps]) h ρ hc
  case factorAddSubMuls => exact factorAddSubMuls_refines (by revert hr; cases d.op <;> simp [rulesFor, selectOps]) h ρ hc
  case reassociateNestedInt => exact reassociateNestedInt_refines (by revert hr; cases d.op <;> simp [rulesFor, selectOps]) h ρ hc
  case reassociateMulDiv => exact reassociateMulDiv_refines (by revert hr; cases d.op <;> simp [rulesFor, selectOps]) h ρ hc
  case reassociateAddSub => exact reassociateAddSub_refines (by revert hr; cases d.op <;> simp [rulesFor, selectOps]) h ρ hc
  case intMultipleBy1 => exact intMultipleBy1_refines (by revert hr; cases d.op <;> simp [rulesFor, selectOps]) h ρ hc
  case constantBooleanSelect => exact constantBooleanSelect_refines (by revert hr; cases d.op <;> simp [rulesFor, selectOps]) h ρ hc
  case redundantAnd => exact redundantAnd_refines (by revert hr; cases d.op <;> simp [rulesFor, selectOps]) h ρ hc
  case redundantOr => exact redundantOr_refines (by revert hr; cases d.op <;> simp [rulesFor, selectOps]) h ρ hc
  case redundantNot => exact redundantNot_refines (by revert hr; cases d.op <;> simp [rulesFor, selectOps]) h ρ hc
  case notComparison => exact notComparison_refines (by revert hr; cases d.op <;> simp [rulesFor, selectOps]) h ρ hc
  case redundantLogicalEqual => exact redundantLogicalEqual_refines (by revert hr; cases d.op <;> simp [rulesFor, selectOps]) h ρ hc
  case redundantFAdd => exact redundantFAdd_refines (by revert hr; cases d.op <;> simp [rulesFor, selectOps]) h ρ hc
  case redundantFSub => exact redundantFSub_refines (by revert hr; cases d.op <;> simp [rulesFor, selectOps]) h ρ hc
  case redundantFMul => exact redundantFMul_refines (by revert hr; cases d.op <;> simp [rulesFor, selectOps]) h ρ hc
  case redundantFDiv => exact redundantFDiv_refines (by revert hr; cases d.op <;> simp [rulesFor, selectOps]) h ρ hc
  case redundantFMod => exact redundantFMod_refines (by revert hr; cases d.op <;> simp [rulesFor, selectOps]) h ρ hc
  case redundantFMix => exact redundantFMix_refines (by revert hr; cases d.op <;> simp [rulesFor, selectOps]) h ρ hc
  case redundantRhs0 => exact redundantRhs0_refines (by revert hr; cases d.op <;> simp [rulesFor, selectOps]) h ρ hc
  case redundantLhs0 => exact redundantLhs0_refines (by revert hr; cases d.op <;> simp [rulesFor, selectOps]) h ρ hc
  case redundantLhs0To0 => exact redundantLhs0To0_refines (by revert hr; cases d.op <;> simp [rulesFor, selectOps]) h ρ hc
  case reassociateCommutative => exact reassociateCommutative_refines (by revert hr; cases d.op <;> simp [rulesFor, selectOps]) h ρ hc
  case redundantDiv => exact redundantDiv_refines (by revert hr; cases d.op <;> simp [rulesFor, selectOps]) h ρ hc
  case redundantMod => exact redundantMod_refines (by revert hr; cases d.op <;> simp [rulesFor, selectOps]) h ρ hc
  case redundantAndOrXor => exact redundantAndOrXor_refines (by revert hr; cases d.op <;> simp [rulesFor, selectOps]) h ρ hc
  case redundantAndAddSub => exact redundantAndAddSub_refines (by revert hr; cases d.op <;> simp [rulesFor, selectOps]) h ρ hc
  case redundantAndShift => exact redundantAndShift_refines (by revert hr; cases d.op <;> simp [rulesFor, selectOps]) h ρ hc

end Verif.Rules
