import Verif.IdCheck.Model

namespace Verif.IdCheck.Spec

/-- Instruction `d` defines id `w` (0 is not an id). -/
def Defines (d : Inst) (w : Nat) : Prop := d.id = w ∧ w ≠ 0

/-- `d` is the first instruction of `l` defining `w`. -/
def FirstDef (l : List Inst) (w : Nat) (d : Inst) : Prop :=
  ∃ p q, l = p ++ d :: q ∧ Defines d w ∧ ∀ x ∈ p, ¬ Defines x w

def DefinedIn (l : List Inst) (w : Nat) : Prop := ∃ d ∈ l, Defines d w

/-- Operand positions (counting the result type and result id) at which an instruction may
mention an id that is only defined later. -/
inductive Permits : Inst → Nat → Prop
  | type {i k} : i.op = .typ → Permits i k
  | any {i k} : i.op = .anyOperand → Permits i k
  | notFirst {i k} : i.op = .allButFirst → k ≠ 0 → Permits i k
  | call {i} : i.op = .functionCall → Permits i 2
  | functionPointer {i} : i.op = .constantFunctionPointer → Permits i 2
  | phi {i k} : i.op = .phi → 2 ≤ k → Permits i k
  | enqueue {i} : i.op = .enqueueKernel → Permits i 8
  | ndrange {i} : i.op = .getKernelNDrange → Permits i 3
  | workGroup {i} : i.op = .getKernelWorkGroup → Permits i 2
  | forwardPointer {i} : i.op = .typeForwardPointer → Permits i 0
  | perElement {i} : i.op = .cooperativeMatrixPerElementOp → Permits i 3
  | reduce {i} : i.op = .cooperativeMatrixReduce → Permits i 4
  | loadTensor {i k} : i.op = .cooperativeMatrixLoadTensor → 7 ≤ k → Permits i k
  | graph {i} : i.op = .graphEntryPoint → Permits i 0
  /-- OpExtInstWithForwardRefsKHR, except with the older debug info sets -/
  | forwardRefs {i k} : i.op = .extInstWithForwardRefs →
      (i.debugInfo = .none ∨ i.debugInfo = .shader100) → Permits i k
  | debugFunction {i} : (i.op = .extInst ∨ i.op = .extInstWithForwardRefs) →
      (i.debugInfo = .openCLFunction ∨ i.debugInfo = .debugInfoFunction) → Permits i 13
  | openCLComposite {i k} : (i.op = .extInst ∨ i.op = .extInstWithForwardRefs) →
      i.debugInfo = .openCLTypeComposite → 13 ≤ k → Permits i k
  | composite {i k} : (i.op = .extInst ∨ i.op = .extInstWithForwardRefs) →
      i.debugInfo = .debugInfoTypeComposite → 12 ≤ k → Permits i k

/-- An earlier OpTypeForwardPointer announces `w`. -/
def Announced (pre : List Inst) (w : Nat) : Prop :=
  ∃ i ∈ pre, i.op = .typeForwardPointer ∧ i.operands.head? = some (.id w)

/-- What the kind of definition must satisfy where its id is used: no type outside
instructions that take types, no untyped result where a value is required, no non-semantic
result in a semantic instruction. -/
def KindOk (user d : Inst) : Prop :=
  (d.isType → user.canHaveType) ∧
  ¬ (d.typeId = 0 ∧ d.isType = false ∧ user.requiresType ∧ d.requiresType) ∧
  (d.nonSemantic → user.nonSemantic)

/-- Operand `k` of `user`, which comes after `pre` and before `post`, is used correctly. -/
def OperandOk (pre : List Inst) (user : Inst) (post : List Inst) (k : Nat) : Operand → Prop
  | .id w =>
    (∃ d, FirstDef pre w d ∧ KindOk user d) ∨
    (¬ DefinedIn pre w ∧ Permits user k ∧ (user.isType → Announced pre w) ∧
      DefinedIn (user :: post) w)
  | .typeId w => ∃ d, FirstDef pre w d ∧ d.isType
  | .extNumber => user.op = .extInstWithForwardRefs → user.nonSemantic
  | .resultId | .other => True

/-- The ids of a module are used correctly. -/
def IdsOk (m : List Inst) : Prop :=
  ∀ pre user post, m = pre ++ user :: post →
    (∀ k o, user.operands[k]? = some o → OperandOk pre user post k o) ∧
    (user.op = .extInstWithForwardRefs → ∃ w, .id w ∈ user.operands ∧ ¬ DefinedIn pre w)

end Verif.IdCheck.Spec
