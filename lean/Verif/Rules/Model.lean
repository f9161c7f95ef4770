import Verif.Rules.Sem

/-!
# The algebraic folding rules

Model of the rules of `/repo/source/opt/folding_rules.cpp` for scalar and vector arithmetic,
bitwise, logical, comparison and select instructions, and of the table that says which rules are
tried on which opcode (`FoldingRules::AddFoldingRules`, 4546-4727).

Simplifications throughout: cooperative matrices and vectors are left out (the tests
`IsCooperativeMatrix` are taken as false); new constants are put into the rewritten instruction
directly, where the code takes the id of a declaration it looks up or creates
(`GetDefiningInstruction(c)->result_id()`); floating-point constants are exact numbers, and
whether an exact result is acceptable (`IsValidResult`, 105-117: not NaN, infinite or subnormal)
is a parameter.  Failed assertions and out-of-range accesses are the outcome `fault`.
-/
namespace Verif.Rules

abbrev Id := Nat

/-- Outcome of a rule (or of a step of one): it does not apply (`return false`), an assertion
fails, or it goes on with a result. -/
inductive Out (α : Type)
  | no
  | fault
  | ret (a : α)
  deriving DecidableEq

/-- Sequencing. -/
def Out.bind {α β : Type} : Out α → (α → Out β) → Out β
  | .no, _ => .no
  | .fault, _ => .fault
  | .ret a, f => f a

instance : Monad Out where
  pure := .ret
  bind := Out.bind

/-- `if (!b) return false;` -/
def need (b : Bool) : Out Unit := if b then .ret () else .no

/-- `assert(b);` -/
def must (b : Bool) : Out Unit := if b then .ret () else .fault

/-- `if (p == nullptr) return false;` -/
def some? {α : Type} : Option α → Out α
  | none => .no
  | some a => .ret a

/-- Access that faults out of range. -/
def at? {α : Type} (l : List α) (k : Nat) : Out α :=
  match l[k]? with
  | none => .fault
  | some a => .ret a

/-- Scalar constants (`/repo/source/opt/constants.h`:135-290, 460-480): `IntConstant`,
`FloatConstant`, `BoolConstant` and the `NullConstant` of a scalar type.  Words of narrow integers
are kept as the integer they stand for. -/
inductive SC (F : Type)
  | int (w : Nat) (signed : Bool) (v : BitVec w)
  | float (w : Nat) (x : F)
  | bool (v : Bool)
  | null (b : Base)
  deriving DecidableEq

/-- Constants: scalars, `VectorConstant`s, and the `NullConstant` of a vector type. -/
inductive Const (F : Type)
  | sc (c : SC F)
  | vec (b : Base) (cs : List (SC F))
  | nullv (b : Base) (n : Nat)
  deriving DecidableEq

variable {F : Type}

/-- Component type of a scalar constant (`Constant::type`, constants.h:133). -/
def SC.base : SC F → Base
  | .int w s _ => .int w s
  | .float w _ => .float w
  | .bool _ => .bool
  | .null b => b

/-- Type of a constant (`Constant::type`, constants.h:133). -/
def Const.ty : Const F → Ty
  | .sc c => ⟨c.base, none⟩
  | .vec b cs => ⟨b, some cs.length⟩
  | .nullv b n => ⟨b, some n⟩

/-- An instruction as the rules see it: opcode, type, operands that are ids, and whether
floating-point folding is allowed (`Instruction::IsFloatingPointFoldingAllowed`,
`/repo/source/opt/instruction.cpp`:830-855). -/
structure Inst where
  op : Op
  ty : Ty
  args : List Id
  fp : Bool
  deriving DecidableEq, Repr

/-- What the rules ask the context: the definition of an id (`GetDef`), the constant an id
declares (`FindDeclaredConstant`), the number of uses of an id (`NumUses`), how many more ids
there are (`AddBinaryOp` gives `nullptr` without), whether the target is SPIR-V 1.4 or later, and
whether a floating-point result is acceptable.  `fold` is what the folder makes of an operation
on two constants (`FoldInstruction`, `/repo/source/opt/fold.cpp`:693-701, called by
`MergeBinaryOpSelect`): a constant, or nothing. -/
structure Env (F : Type) where
  get : Id → Inst
  const : Id → Option (Const F)
  uses : Id → Nat
  room : Nat
  v14 : Bool
  valid : F → Bool
  fold : Op → Ty → Const F → Const F → Option (Const F)

/-- Operands of rewritten instructions: an id, a constant, or the `k`-th added instruction. -/
inductive Ref (F : Type)
  | id (x : Id)
  | c (k : Const F)
  | new (k : Nat)
  deriving DecidableEq

/-- What a rule that applies does: it adds instructions before the one it looks at, all with its
type, and gives that one a new opcode and new operands. -/
structure New (F : Type) where
  adds : List (Op × List (Ref F))
  op : Op
  args : List (Ref F)
  deriving DecidableEq

/-- Only the instruction itself changes. -/
def to (op : Op) (args : List (Ref F)) : Out (New F) := .ret ⟨[], op, args⟩

/-- `GetSingleWordInOperand` (`/repo/source/opt/instruction.h`). -/
def Inst.arg (d : Inst) (k : Nat) : Out Id := at? d.args k

/-- `ElementWidth` (80-92). -/
def Ty.elementWidth (t : Ty) : Out Nat :=
  match t.base with
  | .int w _ => .ret w
  | .float w => .ret w
  | _ => .fault

/-- `HasFloatingPoint` (95-103). -/
def Ty.hasFloat (t : Ty) : Bool :=
  match t.base with
  | .float _ => true
  | _ => false

/-- `uint32_t width = ElementWidth(type); if (width != 32 && width != 64) return false;` -/
def wide (t : Ty) : Out Unit := do
  let w ← t.elementWidth
  need (w == 32 || w == 64)

/-- `if (HasFloatingPoint(type) && !d->IsFloatingPointFoldingAllowed()) return false;` -/
def fpOk (t : Ty) (d : Inst) : Out Unit := need (!(t.hasFloat && !d.fp))

namespace Env
variable (env : Env F)

/-- `constants[k]` (`ConstantManager::GetOperandConstants`, `/repo/source/opt/constants.cpp`:157). -/
def constAt (d : Inst) (k : Nat) : Out (Option (Const F)) := do
  let x ← d.arg k
  .ret (env.const x)

/-- `ConstInput` (119-122). -/
def constInput (d : Inst) : Out (Option (Const F)) := do
  let c0 ← env.constAt d 0
  let c1 ← env.constAt d 1
  .ret (c0.or c1)

/-- The id of `NonConstInput` (124-129); the code passes `constants[0]`. -/
def nonConst (d : Inst) : Out Id := do
  let c0 ← env.constAt d 0
  d.arg (if c0.isSome then 1 else 0)

end Env

section Consts
variable [FloatSem F] [DecidableEq F]

/-- `ScalarConstant::IsZero` (constants.h:158-168) and `NullConstant::IsZero` (468). -/
def SC.isZero : SC F → Bool
  | .int w _ v => v == 0#w
  | .float _ x => decide (x = 0)
  | .bool v => !v
  | .null _ => true

/-- `Constant::IsZero` (constants.h:131, 304-312, 468). -/
def Const.isZero : Const F → Bool
  | .sc c => c.isZero
  | .vec _ cs => cs.all SC.isZero
  | .nullv _ _ => true

/-- `AsNullConstant` of a scalar constant. -/
def SC.isNull : SC F → Bool
  | .null _ => true
  | _ => false

/-- `AsNullConstant`. -/
def Const.isNull : Const F → Bool
  | .sc c => c.isNull
  | .vec _ _ => false
  | .nullv _ _ => true

/-- `HasZero` (574-587). -/
def Const.hasZero : Const F → Bool
  | .sc c => c.isZero
  | .vec _ cs => cs.any SC.isZero
  | .nullv _ _ => true

/-- `GetFloat`, `GetDouble` (constants.cpp:25-45). -/
def SC.getF : SC F → Out F
  | .float _ x => .ret x
  | .null (.float _) => .ret 0
  | _ => .fault

/-- `GetU32`, `GetU64` (constants.cpp:57-79), for a given width. -/
def SC.getI (w : Nat) : SC F → Out (BitVec w)
  | .int w' _ v => if h : w' = w then .ret (h ▸ v) else .fault
  | .null (.int w' _) => if w' = w then .ret 0 else .fault
  | _ => .fault

/-- `NegateFloatingPointConstant` (247-265). -/
def negFloat (c : SC F) : Out (SC F) :=
  match c.base with
  | .float w => do
    must (w == 32 || w == 64)
    let x ← c.getF
    .ret (.float w (-x))
  | _ => .fault

/-- `NegateIntegerConstant` (268-285). -/
def negInt (c : SC F) : Out (SC F) :=
  match c.base with
  | .int w s => do
    must (w == 32 || w == 64)
    let v ← c.getI w
    .ret (.int w s (0 - v))
  | _ => .fault

/-- A step over all components, in order. -/
def each {α β : Type} (f : α → Out β) : List α → Out (List β)
  | [] => .ret []
  | a :: as => do
    let b ← f a
    let bs ← each f as
    .ret (b :: bs)

/-- `NegateConstant` and `NegateVectorConstant` (288-325). -/
def negate : Const F → Out (Const F)
  | .nullv b n => .ret (.nullv b n)
  | .vec b cs =>
    match b with
    | .float _ => do .ret (.vec b (← each negFloat cs))
    | _ => do .ret (.vec b (← each negInt cs))
  | .sc c =>
    match c.base with
    | .float _ => do .ret (.sc (← negFloat c))
    | _ => do .ret (.sc (← negInt c))

variable (valid : F → Bool)

/-- `Reciprocal` (329-355), for a scalar. -/
def rcpS (c : SC F) : Out (SC F) :=
  match c.base with
  | .float w => do
    must (w == 32 || w == 64)
    need (!c.isZero)
    let x ← c.getF
    need (valid (1 / x))
    .ret (.float w (1 / x))
  | _ => .fault

/-- `Reciprocal` (329-355): asserts that the type is a scalar. -/
def rcp : Const F → Out (Const F)
  | .sc c => do .ret (.sc (← rcpS valid c))
  | _ => .fault

/-- `PerformFloatingPointOperation` (592-636). -/
def performFloat (op : Op) (a b : SC F) : Out (SC F) :=
  match a.base with
  | .float w => do
    must (w == 32 || w == 64)
    let x ← a.getF
    let y ← b.getF
    match op with
    | .fmul => do need (valid (x * y)); .ret (.float w (x * y))
    | .fdiv => do
      need (!b.isZero)
      need (valid (x / y))
      .ret (.float w (x / y))
    | .fadd => do need (valid (x + y)); .ret (.float w (x + y))
    | .fsub => do need (valid (x - y)); .ret (.float w (x - y))
    | _ => .fault
  | _ => .fault

/-- `PerformIntegerOperation` (641-693). -/
def performInt (op : Op) (a b : SC F) : Out (SC F) :=
  match a.base with
  | .int w s => do
    must (w == 32 || w == 64)
    let x ← a.getI w
    let y ← b.getI w
    match op with
    | .imul => .ret (.int w s (x * y))
    | .iadd => .ret (.int w s (x + y))
    | .isub => .ret (.int w s (x - y))
    | .xor => .ret (.int w s (x ^^^ y))
    | .or => .ret (.int w s (x ||| y))
    | .and => .ret (.int w s (x &&& y))
    | _ => .fault
  | _ => .fault

/-- Component `k` of a constant in a loop over the components of vectors with component type `b`
(709-725): those of a null constant are null. -/
def Const.comp (b : Base) (k : Nat) : Const F → Out (SC F)
  | .vec _ cs => at? cs k
  | c => if c.isNull then .ret (.null b) else .fault

/-- One component of `PerformOperation` (727-734). -/
def performS (op : Op) (b : Base) (x y : SC F) : Out (SC F) :=
  match b with
  | .float _ => performFloat valid op x y
  | _ => performInt op x y

/-- `PerformOperation` (698-747). -/
def perform (op : Op) (a b : Const F) : Out (Const F) :=
  match a.ty.vec with
  | some n => do
    let cs ← each (fun k => do
      let x ← a.comp a.ty.base k
      let y ← b.comp a.ty.base k
      performS valid op a.ty.base x y) (List.range n)
    .ret (.vec a.ty.base cs)
  | none =>
    match a, b with
    | .sc x, .sc y => do .ret (.sc (← performS valid op a.ty.base x y))
    | _, _ => .fault

/-- `GetBoolConstantKind` (3117-3143) of a scalar. -/
def SC.boolKind : SC F → Option Bool
  | .null _ => some false
  | .bool v => some v
  | _ => none

/-- `GetBoolConstantKind` (3117-3143). -/
def Const.boolKind : Const F → Option Bool
  | .sc c => c.boolKind
  | .nullv _ _ => some false
  | .vec _ [] => none
  | .vec _ (c :: cs) =>
    match c.boolKind with
    | none => none
    | some v => if cs.all (fun d => d.boolKind == some v) then some v else none

/-- `FloatConstantKind` (3551). -/
inductive FKind
  | unknown
  | zero
  | one
  deriving DecidableEq, Repr

/-- `getFloatConstantKind` (3553-3595) of a scalar. -/
def SC.floatKind : SC F → FKind
  | .null _ => .zero
  | .float w x =>
    if x = 0 then .zero
    else if w ≠ 32 ∧ w ≠ 64 then .unknown
    else if x = 1 then .one
    else .unknown
  | _ => .unknown

/-- `getFloatConstantKind` (3553-3595).  Simplification: the assertion on the type is not
modelled; other constants than floating-point ones are `unknown`. -/
def floatKind : Option (Const F) → FKind
  | none => .unknown
  | some c =>
    if c.ty.hasFloat then
      match c with
      | .sc c => c.floatKind
      | .nullv _ _ => .zero
      | .vec _ [] => .unknown
      | .vec _ (c :: cs) => if cs.all (fun d => d.floatKind == c.floatKind) then c.floatKind else .unknown
    else .unknown

/-- `IsAllInt1` (3901-3910) of a scalar. -/
def SC.isInt1 : SC F → Bool
  | .int w _ v => v == 1#w
  | _ => false

/-- `IsAllInt1` (3901-3910). -/
def Const.isInt1 : Const F → Bool
  | .sc c => c.isInt1
  | .vec _ cs => cs.all SC.isInt1
  | .nullv _ _ => false

/-- `GetNullConstId` (`/repo/source/opt/constants.cpp`): the null constant of a type. -/
def nullOf (t : Ty) : Const F :=
  match t.vec with
  | none => .sc (.null t.base)
  | some n => .nullv t.base n

end Consts

section Rules
variable [FloatSem F] [DecidableEq F] (env : Env F) (d : Inst)

/-- `ReciprocalFDiv` (358-404). -/
def reciprocalFDiv : Out (New F) := do
  need d.fp
  wide d.ty
  match ← env.constAt d 1 with
  | some (.vec b cs) =>
    let rs ← each (rcpS env.valid) cs
    let x ← d.arg 0
    to .fmul [.id x, .c (.vec b rs)]
  | some (.sc (.float w v)) =>
    let r ← rcpS env.valid (.float w v)
    let x ← d.arg 0
    to .fmul [.id x, .c (.sc r)]
  | _ => .no

/-- `MergeNegateArithmetic` (407-433). -/
def mergeNegate : Out (New F) := do
  fpOk d.ty d
  let e := env.get (← d.arg 0)
  fpOk d.ty e
  need (e.op == d.op)
  to .copy [.id (← e.arg 0)]

/-- `MergeNegateMulDivArithmetic` (442-500). -/
def mergeNegateMulDiv : Out (New F) := do
  fpOk d.ty d
  let e := env.get (← d.arg 0)
  fpOk d.ty e
  wide d.ty
  need (e.op == .fmul || e.op == .fdiv || e.op == .imul || e.op == .sdiv)
  let c0 ← env.constAt e 0
  let c ← some? (← env.constInput e)
  let neg ← negate c
  let x ← e.arg (if c0.isNone then 0 else 1)
  if e.op == .fdiv || e.op == .sdiv then
    to e.op (if c0.isNone then [.id x, .c neg] else [.c neg, .id x])
  else to e.op [.id x, .c neg]

/-- `MergeNegateAddSubArithmetic` (509-571). -/
def mergeNegateAddSub : Out (New F) := do
  fpOk d.ty d
  let e := env.get (← d.arg 0)
  fpOk d.ty e
  wide d.ty
  need (e.op == .fadd || e.op == .fsub || e.op == .iadd || e.op == .isub)
  let c0 ← env.constAt e 0
  let c ← some? (← env.constInput e)
  let x ← e.arg 0
  let y ← e.arg 1
  let add := e.op == .fadd || e.op == .iadd
  let swap := !add || c0.isNone
  let k : Ref F ← (if add then (do .ret (.c (← negate c))) else .ret (.id (if c0.isNone then y else x)))
  let op0 := if c0.isNone then .id x else k
  let op1 := if c0.isNone then k else .id y
  to (if d.ty.hasFloat then .fsub else .isub) (if swap then [op1, op0] else [op0, op1])

/-- `MergeMulMulArithmetic` (755-802). -/
def mergeMulMul : Out (New F) := do
  fpOk d.ty d
  wide d.ty
  let c1 ← some? (← env.constInput d)
  let e := env.get (← env.nonConst d)
  fpOk d.ty e
  need (e.op == d.op)
  let c2 ← some? (← env.constInput e)
  let m ← perform env.valid d.op c1 c2
  let x ← env.nonConst e
  to d.op [.id x, .c m]

/-- One round of the loop of `MergeMulDivArithmetic` (832-844). -/
def mulDivCancel (i : Nat) : Out (New F) := do
  let e := env.get (← d.arg i)
  need (e.op == .fdiv)
  let y ← e.arg 1
  let z ← d.arg (1 - i)
  need (y == z)
  to .copy [.id (← e.arg 0)]

/-- The rest of `MergeMulDivArithmetic` (846-884). -/
def mulDivConst : Out (New F) := do
  let c1 ← some? (← env.constInput d)
  let e := env.get (← env.nonConst d)
  need e.fp
  need (e.op == .fdiv)
  let c2 ← some? (← env.constInput e)
  need (!c2.hasZero)
  let k0 ← env.constAt e 0
  let m ← perform env.valid (if k0.isNone then e.op else d.op) c1 c2
  let x ← e.arg (if k0.isNone then 0 else 1)
  to (if k0.isNone then d.op else e.op) (if k0.isNone then [.id x, .c m] else [.c m, .id x])

/-- Try the first; if it does not apply, the second. -/
def orElse (a b : Out (New F)) : Out (New F) :=
  match a with
  | .no => b
  | r => r

/-- `MergeMulDivArithmetic` (813-886). -/
def mergeMulDiv : Out (New F) := do
  need d.fp
  wide d.ty
  orElse (mulDivCancel env d 0) (orElse (mulDivCancel env d 1) (mulDivConst env d))

/-- `MergeMulNegateArithmetic` (892-929). -/
def mergeMulNegate : Out (New F) := do
  fpOk d.ty d
  wide d.ty
  let c1 ← some? (← env.constInput d)
  let e := env.get (← env.nonConst d)
  fpOk d.ty e
  need (e.op == .fneg || e.op == .sneg)
  let neg ← negate c1
  to d.op [.id (← e.arg 0), .c neg]

/-- `IsFoldableNegation` (932-936). -/
def Inst.foldableNegation (e : Inst) : Bool := e.op == .sneg || (e.op == .fneg && e.fp)

/-- `MergeDivMulDoubleNegative` (942-969). -/
def mergeDoubleNegative : Out (New F) := do
  fpOk d.ty d
  let l := env.get (← d.arg 0)
  let r := env.get (← d.arg 1)
  need (l.foldableNegation && r.foldableNegation)
  to d.op [.id (← l.arg 0), .id (← r.arg 0)]

/-- `MergeDivDivArithmetic` (978-1043). -/
def mergeDivDiv : Out (New F) := do
  need d.fp
  wide d.ty
  let c1 ← some? (← env.constInput d)
  need (!c1.hasZero)
  let e := env.get (← env.nonConst d)
  need e.fp
  let first := (← env.constAt d 0).isNone
  need (e.op == d.op)
  let c2 ← some? (← env.constInput e)
  need (!c2.hasZero)
  let other := (← env.constAt e 0).isNone
  let m ← perform env.valid (if other then .fmul else d.op)
    (if first then c2 else c1) (if first then c1 else c2)
  let x ← e.arg (if other then 0 else 1)
  to (if !first && !other then .fmul else d.op)
    (if first && other then [.id x, .c m] else [.c m, .id x])

/-- One round of the loop of `MergeDivMulArithmetic` (1076-1086). -/
def divMulCancel (i : Nat) : Out (New F) := do
  let e := env.get (← d.arg 0)
  need (e.op == .fmul)
  let y ← e.arg i
  let z ← d.arg 1
  need (y == z)
  to .copy [.id (← e.arg (1 - i))]

/-- The rest of `MergeDivMulArithmetic` (1088-1123). -/
def divMulConst : Out (New F) := do
  let c1 ← some? (← env.constInput d)
  need (!c1.hasZero)
  let e := env.get (← env.nonConst d)
  need e.fp
  let first := (← env.constAt d 0).isNone
  need (e.op == .fmul)
  let c2 ← some? (← env.constInput e)
  let m ← perform env.valid d.op (if first then c2 else c1) (if first then c1 else c2)
  let x ← env.nonConst e
  to (if first then e.op else d.op) (if first then [.id x, .c m] else [.c m, .id x])

/-- `MergeDivMulArithmetic` (1054-1125). -/
def mergeDivMul : Out (New F) := do
  need d.fp
  wide d.ty
  orElse (divMulCancel env d 0) (orElse (divMulCancel env d 1) (divMulConst env d))

/-- `MergeDivNegateArithmetic` (1131-1161). -/
def mergeDivNegate : Out (New F) := do
  need d.fp
  let c1 ← some? (← env.constInput d)
  let e := env.get (← env.nonConst d)
  need e.fp
  let first := (← env.constAt d 0).isNone
  need (e.op == .fneg)
  let neg ← negate c1
  let x ← e.arg 0
  to d.op (if first then [.id x, .c neg] else [.c neg, .id x])

/-- `TrySubstitute` in `MergeAddNegateArithmetic` (1180-1190). -/
def trySubstitute (a b : Id) : Out (New F) := do
  need (env.get a).foldableNegation
  to (if d.ty.hasFloat then .fsub else .isub) [.id b, .id (← (env.get a).arg 0)]

/-- `MergeAddNegateArithmetic` (1166-1194). -/
def mergeAddNegate : Out (New F) := do
  fpOk d.ty d
  let x ← d.arg 0
  let y ← d.arg 1
  orElse (trySubstitute env d x y) (trySubstitute env d y x)

/-- `MergeSubNegateArithmetic` (1200-1239). -/
def mergeSubNegate : Out (New F) := do
  fpOk d.ty d
  let x ← d.arg 0
  let y ← d.arg 1
  if (env.get y).foldableNegation then
    to (if d.ty.hasFloat then .fadd else .iadd) [.id x, .id (← (env.get y).arg 0)]
  else do
    wide d.ty
    let c ← some? (← env.constAt d 1)
    need (env.get x).foldableNegation
    let neg ← negate c
    to d.op [.c neg, .id (← (env.get x).arg 0)]

/-- `MergeAddAddArithmetic` (1247-1292). -/
def mergeAddAdd : Out (New F) := do
  fpOk d.ty d
  wide d.ty
  let c1 ← some? (← env.constInput d)
  let e := env.get (← env.nonConst d)
  fpOk d.ty e
  need (e.op == .fadd || e.op == .iadd)
  let c2 ← some? (← env.constInput e)
  let x ← env.nonConst e
  let m ← perform env.valid d.op c1 c2
  to d.op [.id x, .c m]

/-- `MergeAddSubArithmetic` (1300-1357). -/
def mergeAddSub : Out (New F) := do
  fpOk d.ty d
  wide d.ty
  let c1 ← some? (← env.constInput d)
  let e := env.get (← env.nonConst d)
  fpOk d.ty e
  need (e.op == .fsub || e.op == .isub)
  let c2 ← some? (← env.constInput e)
  let k0 ← env.constAt e 0
  if k0.isNone then do
    let x ← e.arg 0
    let m ← perform env.valid e.op c1 c2
    to d.op [.id x, .c m]
  else do
    let m ← perform env.valid d.op c1 c2
    let x ← e.arg 1
    to e.op [.c m, .id x]

/-- `MergeSubAddArithmetic` (1365-1428). -/
def mergeSubAdd : Out (New F) := do
  fpOk d.ty d
  wide d.ty
  let c1 ← some? (← env.constInput d)
  let e := env.get (← env.nonConst d)
  fpOk d.ty e
  need (e.op == .fadd || e.op == .iadd)
  let c2 ← some? (← env.constInput e)
  let x ← env.nonConst e
  let first := (← env.constAt d 0).isNone
  let m ← perform env.valid d.op (if first then c2 else c1) (if first then c1 else c2)
  if first then to e.op [.id x, .c m] else to d.op [.c m, .id x]

/-- `MergeSubSubArithmetic` (1436-1506). -/
def mergeSubSub : Out (New F) := do
  fpOk d.ty d
  wide d.ty
  let c1 ← some? (← env.constInput d)
  let e := env.get (← env.nonConst d)
  fpOk d.ty e
  need (e.op == .fsub || e.op == .isub)
  let c2 ← some? (← env.constInput e)
  let x ← env.nonConst e
  let first := (← env.constAt d 0).isNone
  let other := (← env.constAt e 0).isNone
  let addOp := if d.ty.hasFloat then Op.fadd else .iadd
  let m ← perform env.valid (if other then addOp else d.op)
    (if !other && first then c2 else c1) (if !other && first then c1 else c2)
  to (if !first && !other then addOp else d.op)
    (if first != other then [.c m, .id x] else [.id x, .c m])

/-- `MergeGenericAddendSub` (1510-1526). -/
def genericAddendSub (addend sub : Id) : Out (New F) := do
  let e := env.get sub
  need (e.op == .fsub || e.op == .isub)
  need (!(e.op == .fsub && !e.fp))
  let y ← e.arg 1
  need (addend == y)
  to .copy [.id (← e.arg 0)]

/-- `MergeGenericAddSubArithmetic` (1534-1557). -/
def mergeGenericAddSub : Out (New F) := do
  fpOk d.ty d
  wide d.ty
  let x ← d.arg 0
  let y ← d.arg 1
  orElse (genericAddendSub env x y) (genericAddendSub env y x)

/-- `FactorAddSubMulsOpnds` (1563-1584). -/
def factorOpnds (f00 f01 f10 f11 : Id) : Out (New F) := do
  need (f00 == f10)
  need (decide (1 ≤ env.room))
  .ret ⟨[(d.op, [.id f01, .id f11])],
    if d.op == .fadd || d.op == .fsub then .fmul else .imul, [.id f00, .new 0]⟩

/-- `FactorAddSubMuls` (1590-1637). -/
def factorAddSubMuls : Out (New F) := do
  fpOk d.ty d
  let x ← d.arg 0
  let a := env.get x
  need (a.op == .fmul || a.op == .imul)
  let y ← d.arg 1
  let b := env.get y
  need (b.op == .fmul || b.op == .imul)
  need (!decide (env.uses x > 1))
  need (!decide (env.uses y > 1))
  need (!(a.op == .fmul && (!a.fp || !b.fp)))
  let a0 ← a.arg 0
  let a1 ← a.arg 1
  let b0 ← b.arg 0
  let b1 ← b.arg 1
  orElse (factorOpnds env d a0 a1 b0 b1)
    (orElse (factorOpnds env d a0 a1 b1 b0)
      (orElse (factorOpnds env d a1 a0 b0 b1) (factorOpnds env d a1 a0 b1 b0)))

/-- `ReassociateNestedGenericInt` (1650-1723), on the opcode of the instruction. -/
def reassociateNestedInt : Out (New F) := do
  need (← env.constAt d 0).isNone
  need (← env.constAt d 1).isNone
  wide d.ty
  let l := env.get (← d.arg 0)
  let r := env.get (← d.arg 1)
  need (l.op == d.op && r.op == d.op)
  let cl ← some? (← env.constInput l)
  let cr ← some? (← env.constInput r)
  let m ← perform env.valid d.op cl cr
  let x ← env.nonConst l
  let y ← env.nonConst r
  need (decide (1 ≤ env.room))
  .ret ⟨[(d.op, [.id x, .id y])], d.op, [.c m, .new 0]⟩

/-- `ReassociateNestedMulDivFloat` (1731-1870). -/
def reassociateMulDiv : Out (New F) := do
  need (← env.constAt d 0).isNone
  need (← env.constAt d 1).isNone
  wide d.ty
  need d.fp
  let l := env.get (← d.arg 0)
  let r := env.get (← d.arg 1)
  need ((l.op == .fmul || l.op == .fdiv) && (r.op == .fmul || r.op == .fdiv))
  need (l.fp && r.fp)
  let cl ← some? (← env.constInput l)
  let cr ← some? (← env.constInput r)
  let l0 := (← env.constAt l 0).isSome
  let r0 := (← env.constAt r 0).isSome
  let clRcp := if l0 then false else l.op == .fdiv
  let crRcp := if r0 then false else r.op == .fdiv
  let x ← l.arg (if l0 then 1 else 0)
  let xRcp := if l0 then l.op == .fdiv else false
  let y ← r.arg (if r0 then 1 else 0)
  let yRcp := if r0 then r.op == .fdiv else false
  let crRcp := if d.op == .fdiv then !crRcp else crRcp
  let yRcp := if d.op == .fdiv then !yRcp else yRcp
  let cl ← (if clRcp then rcp env.valid cl else .ret cl)
  let cr ← (if crRcp then rcp env.valid cr else .ret cr)
  let m ← perform env.valid .fmul cl cr
  need (decide (1 ≤ env.room))
  .ret ⟨[if !xRcp && !yRcp then (.fmul, [.id x, .id y])
         else if xRcp && !yRcp then (.fdiv, [.id y, .id x])
         else if !xRcp && yRcp then (.fdiv, [.id x, .id y])
         else (.fmul, [.id x, .id y])],
    if xRcp && yRcp then .fdiv else .fmul, [.c m, .new 0]⟩

/-- `ReassociateNestedAddSub` (1878-2024). -/
def reassociateAddSub : Out (New F) := do
  need (← env.constAt d 0).isNone
  need (← env.constAt d 1).isNone
  wide d.ty
  fpOk d.ty d
  let l := env.get (← d.arg 0)
  let r := env.get (← d.arg 1)
  let addOp := if d.ty.hasFloat then Op.fadd else .iadd
  let subOp := if d.ty.hasFloat then Op.fsub else .isub
  need ((l.op == addOp || l.op == subOp) && (r.op == addOp || r.op == subOp))
  need (!(d.ty.hasFloat && (!l.fp || !r.fp)))
  let cl ← some? (← env.constInput l)
  let cr ← some? (← env.constInput r)
  let l0 := (← env.constAt l 0).isSome
  let r0 := (← env.constAt r 0).isSome
  let clNeg := if l0 then false else l.op == subOp
  let crNeg := if r0 then false else r.op == subOp
  let x ← l.arg (if l0 then 1 else 0)
  let xNeg := if l0 then l.op == subOp else false
  let y ← r.arg (if r0 then 1 else 0)
  let yNeg := if r0 then r.op == subOp else false
  let sub := d.op == .fsub || d.op == .isub
  let crNeg := if sub then !crNeg else crNeg
  let yNeg := if sub then !yNeg else yNeg
  let cl ← (if clNeg then negate cl else .ret cl)
  let cr ← (if crNeg then negate cr else .ret cr)
  let m ← perform env.valid addOp cl cr
  need (decide (1 ≤ env.room))
  .ret ⟨[if !xNeg && !yNeg then (addOp, [.id x, .id y])
         else if xNeg && !yNeg then (subOp, [.id y, .id x])
         else if !xNeg && yNeg then (subOp, [.id x, .id y])
         else (addOp, [.id x, .id y])],
    if xNeg && yNeg then subOp else addOp, [.c m, .new 0]⟩

/-- Is the constant an `IntConstant`, and if so, is its width 32 or 64, and is it 1 (2035-2040)? -/
def intOne : Option (Const F) → Option (Bool × Bool)
  | some (.sc (.int w _ v)) => some (w == 32 || w == 64, v == 1#w)
  | _ => none

/-- `IntMultipleBy1` (2026-2051). -/
def intMultipleBy1 : Out (New F) := do
  let c0 ← env.constAt d 0
  let c1 ← env.constAt d 1
  let x ← d.arg 0
  let y ← d.arg 1
  match intOne c0 with
  | some (false, _) => .no
  | some (true, true) => to .copy [.id y]
  | _ =>
    match intOne c1 with
    | some (true, true) => to .copy [.id x]
    | _ => .no

/-- The index of component `k` of the shuffle that replaces a select (3094-3103). -/
def selectIndex (size k : Nat) (c : SC F) : Out Nat :=
  match c with
  | .null _ => .ret (k + size)
  | .bool v => .ret (if v then k else k + size)
  | _ => .fault

/-- The indices of that shuffle (3091-3104). -/
def selectIndices (size : Nat) : Nat → List (SC F) → Out (List Nat)
  | _, [] => .ret []
  | k, c :: cs => do
    let a ← selectIndex size k c
    let as ← selectIndices size (k + 1) cs
    .ret (a :: as)

/-- `RedundantSelect` (3045-3115). -/
def redundantSelect : Out (New F) := do
  let x ← d.arg 1
  let y ← d.arg 2
  let c0 ← env.constAt d 0
  if x == y then to .copy [.id x]
  else match c0 with
    | none => .no
    | some (.sc c) =>
      match c with
      | .null .bool => to .copy [.id y]
      | .bool v => to .copy [.id (if v then x else y)]
      | _ => .fault
    | some (.nullv _ _) => to .copy [.id y]
    | some (.vec _ cs) =>
      let idx ← selectIndices cs.length 0 cs
      to (.shuffle idx) [.id x, .id y]

/-- `FoldConstantBooleanSelect` (3148-3185). -/
def constantBooleanSelect : Out (New F) := do
  let c1 ← some? (← env.constAt d 1)
  let c2 ← some? (← env.constAt d 2)
  let c ← d.arg 0
  need (d.ty == (env.get c).ty)
  let t ← some? c1.boolKind
  let f ← some? c2.boolKind
  if t && !f then to .copy [.id c]
  else if !t && f then to .lnot [.id c]
  else .no

/-- `RedundantLogicalAnd` (3190-3204). -/
def redundantAnd : Out (New F) := do
  let c ← env.constInput d
  need (c.bind Const.boolKind == some true)
  to .copy [.id (← env.nonConst d)]

/-- `RedundantLogicalOr` (3209-3223). -/
def redundantOr : Out (New F) := do
  let c ← env.constInput d
  need (c.bind Const.boolKind == some false)
  to .copy [.id (← env.nonConst d)]

/-- `RedundantLogicalNot` (3227-3241). -/
def redundantNot : Out (New F) := do
  let e := env.get (← d.arg 0)
  need (e.op == .lnot)
  to .copy [.id (← e.arg 0)]

/-- The opcodes of `MergeBinaryOpSelectOps` (3261-3303). -/
def selectOps : List Op :=
  [.leq, .lne, .land, .lor,
   .icmp .eq, .icmp .ne, .icmp .ugt, .icmp .sgt, .icmp .uge, .icmp .sge,
   .icmp .ult, .icmp .slt, .icmp .ule, .icmp .sle,
   .fcmp true .eq, .fcmp false .eq, .fcmp true .ne, .fcmp false .ne,
   .fcmp true .lt, .fcmp false .lt, .fcmp true .gt, .fcmp false .gt,
   .fcmp true .le, .fcmp false .le, .fcmp true .ge, .fcmp false .ge,
   .iadd, .fadd, .isub, .fsub, .imul, .fmul, .udiv, .sdiv, .fdiv, .vts,
   .shr, .sar, .shl, .xor, .or, .and]

/-- What becomes of an added operation on constants (3353-3384): the constant the folder gives, or
the operation itself. -/
def foldAdded (x y : Id) : Option (Const F) :=
  match env.const x, env.const y with
  | some a, some b => env.fold d.op d.ty a b
  | _, _ => none

/-- The condition is scalar and the result is not (3336-3340). -/
def scalarCondition (c : Id) : Bool := d.ty.vec.isSome && (env.get c).ty.vec.isNone

/-- `MergeBinaryOpSelect` (3305-3392).  Simplifications: the added operations are the whole
instruction list if the folder gives no constant; if there are not enough ids nothing is done (the
code leaves the first added operation behind). -/
def mergeBinaryOpSelect : Out (New F) := do
  let _ ← some? (← env.constInput d)
  let e := env.get (← env.nonConst d)
  need (e.op == .select)
  let _ ← some? (← env.constAt e 1)
  let _ ← some? (← env.constAt e 2)
  let c ← e.arg 0
  need (!(scalarCondition env d c && !env.v14))
  let first := (← env.constAt d 0).isSome
  let a ← d.arg 0
  let b ← d.arg 1
  let t ← e.arg 1
  let f ← e.arg 2
  need (decide (2 ≤ env.room))
  let (l1, l2) := if first then (a, t) else (t, b)
  let (r1, r2) := if first then (a, f) else (f, b)
  match foldAdded env d l1 l2, foldAdded env d r1 r2 with
  | some k, some k' => to .select [.id c, .c k, .c k']
  | some k, none => .ret ⟨[(d.op, [.id r1, .id r2])], .select, [.id c, .c k, .new 0]⟩
  | none, some k' => .ret ⟨[(d.op, [.id l1, .id l2])], .select, [.id c, .new 0, .c k']⟩
  | none, none =>
    .ret ⟨[(d.op, [.id l1, .id l2]), (d.op, [.id r1, .id r2])], .select, [.id c, .new 0, .new 1]⟩

/-- The opcode of the negated comparison (3416-3497). -/
def negatedComparison : Op → Option Op
  | .icmp .eq => some (.icmp .ne)
  | .icmp .ne => some (.icmp .eq)
  | .fcmp true .eq => some (.fcmp false .ne)
  | .fcmp true .ne => some (.fcmp false .eq)
  | .fcmp false .eq => some (.fcmp true .ne)
  | .fcmp false .ne => some (.fcmp true .eq)
  | .leq => some .lne
  | .lne => some .leq
  | .icmp .ugt => some (.icmp .ule)
  | .icmp .ule => some (.icmp .ugt)
  | .icmp .sgt => some (.icmp .sle)
  | .icmp .sle => some (.icmp .sgt)
  | .fcmp true .gt => some (.fcmp false .le)
  | .fcmp true .le => some (.fcmp false .gt)
  | .fcmp false .gt => some (.fcmp true .le)
  | .fcmp false .le => some (.fcmp true .gt)
  | .icmp .ult => some (.icmp .uge)
  | .icmp .uge => some (.icmp .ult)
  | .icmp .slt => some (.icmp .sge)
  | .icmp .sge => some (.icmp .slt)
  | .fcmp true .lt => some (.fcmp false .ge)
  | .fcmp true .ge => some (.fcmp false .lt)
  | .fcmp false .lt => some (.fcmp true .ge)
  | .fcmp false .ge => some (.fcmp true .lt)
  | _ => none

/-- `FoldLogicalNotComparison` (3403-3510). -/
def notComparison : Out (New F) := do
  let x ← d.arg 0
  let e := env.get x
  need (!decide (env.uses x > 1))
  let op ← some? (negatedComparison e.op)
  to op [.id (← e.arg 0), .id (← e.arg 1)]

/-- `RedundantLogicalEqual` (3516-3549). -/
def redundantLogicalEqual : Out (New F) := do
  let c ← some? (← env.constInput d)
  let x ← d.arg 0
  need (d.ty == (env.get x).ty)
  let v ← some? c.boolKind
  let y ← env.nonConst d
  to (if (if d.op == .leq then v else !v) then .copy else .lnot) [.id y]

/-- `RedundantFAdd` (3597-3621). -/
def redundantFAdd : Out (New F) := do
  need d.fp
  let k0 := floatKind (← env.constAt d 0)
  let k1 := floatKind (← env.constAt d 1)
  need (k0 == .zero || k1 == .zero)
  to .copy [.id (← d.arg (if k0 == .zero then 1 else 0))]

/-- `RedundantFSub` (3623-3653). -/
def redundantFSub : Out (New F) := do
  need d.fp
  let k0 := floatKind (← env.constAt d 0)
  let k1 := floatKind (← env.constAt d 1)
  if k0 == .zero then to .fneg [.id (← d.arg 1)]
  else if k1 == .zero then to .copy [.id (← d.arg 0)]
  else .no

/-- `RedundantFMul` (3655-3687). -/
def redundantFMul : Out (New F) := do
  need d.fp
  let k0 := floatKind (← env.constAt d 0)
  let k1 := floatKind (← env.constAt d 1)
  if k0 == .zero || k1 == .zero then to .copy [.id (← d.arg (if k0 == .zero then 0 else 1))]
  else if k0 == .one || k1 == .one then to .copy [.id (← d.arg (if k0 == .one then 1 else 0))]
  else .no

/-- `RedundantFDiv` (3689-3712). -/
def redundantFDiv : Out (New F) := do
  need d.fp
  let k0 := floatKind (← env.constAt d 0)
  let k1 := floatKind (← env.constAt d 1)
  need (k0 == .zero || k1 == .one)
  to .copy [.id (← d.arg 0)]

/-- `RedundantFMod` (3714-3736). -/
def redundantFMod : Out (New F) := do
  need d.fp
  let k0 := floatKind (← env.constAt d 0)
  need (k0 == .zero)
  to .copy [.id (← d.arg 0)]

/-- `RedundantFMix` (3738-3771).  The operands here are those of the extended instruction, without
the set and the number of the instruction. -/
def redundantFMix : Out (New F) := do
  need d.fp
  let k := floatKind (← env.constAt d 2)
  need (k == .zero || k == .one)
  to .copy [.id (← d.arg (if k == .zero then 0 else 1))]

/-- `RedundantBinaryOpWithZeroOperand` (3775-3797). -/
def zeroOperand (arg foldTo : Nat) : Out (New F) := do
  let c ← some? (← env.constAt d arg)
  need c.isZero
  let x ← d.arg foldTo
  to (if d.ty == c.ty then .copy else .bitcast) [.id x]

/-- `RedundantBinaryRhs0` (3809-3816). -/
def redundantRhs0 : Out (New F) := zeroOperand env d 1 0

/-- `RedundantBinaryLhs0` (3822-3829). -/
def redundantLhs0 : Out (New F) := zeroOperand env d 0 1

/-- `RedundantBinaryLhs0To0` (3841-3848). -/
def redundantLhs0To0 : Out (New F) := zeroOperand env d 0 0

/-- `ReassociateCommutiveOp` (3850-3883). -/
def reassociateCommutative : Out (New F) := do
  let w ← d.ty.elementWidth
  need (w == 32)
  let c1 ← some? (← env.constInput d)
  let e := env.get (← env.nonConst d)
  need (e.op == d.op)
  let c2 ← some? (← env.constInput e)
  let x ← env.nonConst e
  let m ← perform env.valid d.op c1 c2
  to d.op [.id x, .c m]

/-- `RedundantSUDiv` (3913-3937). -/
def redundantDiv : Out (New F) := do
  let c ← some? (← env.constAt d 1)
  need c.isInt1
  let x ← d.arg 0
  to (if d.ty == c.ty then .copy else .bitcast) [.id x]

/-- `RedundantSUMod` (3940-3958). -/
def redundantMod : Out (New F) := do
  let c ← some? (← env.constAt d 1)
  need c.isInt1
  to .copy [.c (nullOf d.ty)]

/-- `Dispatch` in `ForEachIntegerConstantPair` (3970-3981): a test of the pair of values, of any
width. -/
def dispatch (p : ∀ w, BitVec w → BitVec w → Bool) (x y : SC F) : Out Bool :=
  match x.base with
  | .int w _ => do
    must (w == 32 || w == 64)
    let a ← x.getI w
    let b ← y.getI w
    .ret (p w a b)
  | _ => .fault

/-- `ForEachIntegerConstantPair` (3964-4014) with a callback that ands a test: does every pair of
components pass? -/
def allPairs (p : ∀ w, BitVec w → BitVec w → Bool) (a b : Const F) : Out Bool :=
  match a.ty.vec with
  | some n => do
    let bs ← each (fun k => do
      let x ← a.comp a.ty.base k
      let y ← b.comp a.ty.base k
      dispatch p x y) (List.range n)
    .ret (bs.all id)
  | none =>
    match a, b with
    | .sc x, .sc y => dispatch p x y
    | _, _ => .fault

/-- `RedundantAndOrXor` (4021-4073). -/
def redundantAndOrXor : Out (New F) := do
  wide d.ty
  let c1 ← some? (← env.constInput d)
  let e := env.get (← env.nonConst d)
  need (e.op == .or || e.op == .xor)
  let c2 ← some? (← env.constInput e)
  let sub ← allPairs (fun _ a b => a &&& b == a) c1 c2
  let disjoint ← allPairs (fun w a b => a &&& b == 0#w) c1 c2
  if e.op == .or && sub then to .copy [.c c1]
  else do
    need disjoint
    let x ← env.nonConst e
    to d.op [.id x, .c c1]

/-- `utils::LSB` (`/repo/source/util/bitutils.h`:211). -/
def lsb {w : Nat} (v : BitVec w) : BitVec w := v &&& (~~~v + 1)

/-- `RedundantAndAddSub` (4079-4129). -/
def redundantAndAddSub : Out (New F) := do
  wide d.ty
  let c1 ← some? (← env.constInput d)
  let e := env.get (← env.nonConst d)
  need (e.op == .iadd || e.op == .isub)
  let c2 ← some? (← env.constInput e)
  let k0 ← env.constAt e 0
  need (!(e.op == .isub && k0.isSome))
  let ok ← allPairs (fun _ a b => a.ult (lsb b)) c1 c2
  need ok
  let x ← env.nonConst e
  to d.op [.id x, .c c1]

/-- `get_value_u64` (4165-4171) with `GetZeroExtendedValue` (constants.cpp).  Simplification: a
narrow signed integer is taken zero-extended, where the code has the 32-bit word that keeps it
sign-extended; the uses mask the value or compare it with the width. -/
def SC.value : SC F → Option Nat
  | .int _ _ v => some v.toNat
  | .null (.int _ _) => some 0
  | _ => none

/-- `can_fold_component` (4173-4185). -/
def canFoldShift (width : Nat) (right : Bool) (mask shift : SC F) : Bool :=
  match mask.value, shift.value with
  | some m, some s =>
    if s ≥ width then false
    else
      let m := m % 2 ^ width
      if right then m <<< s % 2 ^ 64 % 2 ^ width == 0 else (m >>> s) % 2 ^ width == 0
  | _, _ => false

/-- `GetVectorComponents` (constants.cpp). -/
def Const.components : Const F → Out (List (SC F))
  | .vec _ cs => .ret cs
  | .nullv b n => .ret (List.replicate n (.null b))
  | .sc _ => .fault

/-- `RedundantAndShift` (4135-4212). -/
def redundantAndShift : Out (New F) := do
  let width ← d.ty.elementWidth
  need (width == 8 || width == 16 || width == 32 || width == 64)
  let c1 ← some? (← env.constInput d)
  let e := env.get (← env.nonConst d)
  need (e.op == .shl || e.op == .shr)
  need (← env.constAt e 0).isNone
  let c2 ← some? (← env.constAt e 1)
  match d.ty.vec with
  | some n => do
    need (c2.ty.vec == some n)
    let ms ← c1.components
    let ss ← c2.components
    let oks ← each (fun k => do
      let m ← at? ms k
      let s ← at? ss k
      .ret (canFoldShift width (e.op == .shr) m s)) (List.range n)
    need (oks.all id)
    to .copy [.c (nullOf d.ty)]
  | none =>
    match c1, c2 with
    | .sc m, .sc s => do
      need (canFoldShift width (e.op == .shr) m s)
      to .copy [.c (nullOf d.ty)]
    | _, _ => .no

end Rules

/-- The rules, by name. -/
inductive Rule
  | reciprocalFDiv | mergeNegate | mergeNegateMulDiv | mergeNegateAddSub | mergeMulMul
  | mergeMulDiv | mergeMulNegate | mergeDoubleNegative | mergeDivDiv | mergeDivMul
  | mergeDivNegate | mergeAddNegate | mergeSubNegate | mergeAddAdd | mergeAddSub | mergeSubAdd
  | mergeSubSub | mergeGenericAddSub | factorAddSubMuls | reassociateNestedInt
  | reassociateMulDiv | reassociateAddSub | intMultipleBy1 | redundantSelect
  | constantBooleanSelect | redundantAnd | redundantOr | redundantNot | mergeBinaryOpSelect
  | notComparison | redundantLogicalEqual | redundantFAdd | redundantFSub | redundantFMul
  | redundantFDiv | redundantFMod | redundantFMix | redundantRhs0 | redundantLhs0
  | redundantLhs0To0 | reassociateCommutative | redundantDiv | redundantMod | redundantAndOrXor
  | redundantAndAddSub | redundantAndShift
  deriving DecidableEq, Repr

/-- Apply a rule. -/
def Rule.run [FloatSem F] [DecidableEq F] (r : Rule) (env : Env F) (d : Inst) : Out (New F) :=
  match r with
  | .reciprocalFDiv => Verif.Rules.reciprocalFDiv env d
  | .mergeNegate => Verif.Rules.mergeNegate env d
  | .mergeNegateMulDiv => Verif.Rules.mergeNegateMulDiv env d
  | .mergeNegateAddSub => Verif.Rules.mergeNegateAddSub env d
  | .mergeMulMul => Verif.Rules.mergeMulMul env d
  | .mergeMulDiv => Verif.Rules.mergeMulDiv env d
  | .mergeMulNegate => Verif.Rules.mergeMulNegate env d
  | .mergeDoubleNegative => Verif.Rules.mergeDoubleNegative env d
  | .mergeDivDiv => Verif.Rules.mergeDivDiv env d
  | .mergeDivMul => Verif.Rules.mergeDivMul env d
  | .mergeDivNegate => Verif.Rules.mergeDivNegate env d
  | .mergeAddNegate => Verif.Rules.mergeAddNegate env d
  | .mergeSubNegate => Verif.Rules.mergeSubNegate env d
  | .mergeAddAdd => Verif.Rules.mergeAddAdd env d
  | .mergeAddSub => Verif.Rules.mergeAddSub env d
  | .mergeSubAdd => Verif.Rules.mergeSubAdd env d
  | .mergeSubSub => Verif.Rules.mergeSubSub env d
  | .mergeGenericAddSub => Verif.Rules.mergeGenericAddSub env d
  | .factorAddSubMuls => Verif.Rules.factorAddSubMuls env d
  | .reassociateNestedInt => Verif.Rules.reassociateNestedInt env d
  | .reassociateMulDiv => Verif.Rules.reassociateMulDiv env d
  | .reassociateAddSub => Verif.Rules.reassociateAddSub env d
  | .intMultipleBy1 => Verif.Rules.intMultipleBy1 env d
  | .redundantSelect => Verif.Rules.redundantSelect env d
  | .constantBooleanSelect => Verif.Rules.constantBooleanSelect env d
  | .redundantAnd => Verif.Rules.redundantAnd env d
  | .redundantOr => Verif.Rules.redundantOr env d
  | .redundantNot => Verif.Rules.redundantNot env d
  | .mergeBinaryOpSelect => Verif.Rules.mergeBinaryOpSelect env d
  | .notComparison => Verif.Rules.notComparison env d
  | .redundantLogicalEqual => Verif.Rules.redundantLogicalEqual env d
  | .redundantFAdd => Verif.Rules.redundantFAdd env d
  | .redundantFSub => Verif.Rules.redundantFSub env d
  | .redundantFMul => Verif.Rules.redundantFMul env d
  | .redundantFDiv => Verif.Rules.redundantFDiv env d
  | .redundantFMod => Verif.Rules.redundantFMod env d
  | .redundantFMix => Verif.Rules.redundantFMix env d
  | .redundantRhs0 => Verif.Rules.redundantRhs0 env d
  | .redundantLhs0 => Verif.Rules.redundantLhs0 env d
  | .redundantLhs0To0 => Verif.Rules.redundantLhs0To0 env d
  | .reassociateCommutative => Verif.Rules.reassociateCommutative env d
  | .redundantDiv => Verif.Rules.redundantDiv env d
  | .redundantMod => Verif.Rules.redundantMod env d
  | .redundantAndOrXor => Verif.Rules.redundantAndOrXor env d
  | .redundantAndAddSub => Verif.Rules.redundantAndAddSub env d
  | .redundantAndShift => Verif.Rules.redundantAndShift env d

/-- `FoldingRules::AddFoldingRules` (4546-4727): the rules for an opcode, in the order they are
tried.  Left out: `OpBitcast`, `OpBitReverse`, `OpPhi`, composites, dot products, stores, entry
points and images. -/
def rulesFor (op : Op) : List Rule :=
  (if op ∈ [Op.or, .xor, .shr, .sar, .shl, .iadd, .isub] then [Rule.redundantRhs0] else []) ++
  (if op ∈ [Op.or, .xor, .iadd] then [.redundantLhs0] else []) ++
  (if op ∈ [Op.shr, .sar, .shl, .sdiv, .udiv, .smod, .umod] then [.redundantLhs0To0] else []) ++
  (if op ∈ [Op.or, .xor, .and] then [.reassociateCommutative] else []) ++
  (if op ∈ [Op.imul, .or, .xor, .and] then [.reassociateNestedInt] else []) ++
  (if op ∈ selectOps then [.mergeBinaryOpSelect] else []) ++
  (match op with
   | .sdiv => [.redundantDiv, .mergeDoubleNegative]
   | .udiv => [.redundantDiv]
   | .smod => [.redundantMod]
   | .umod => [.redundantMod]
   | .fadd => [.redundantFAdd, .mergeAddNegate, .mergeAddAdd, .mergeAddSub, .mergeGenericAddSub,
      .reassociateAddSub, .factorAddSubMuls]
   | .fdiv => [.redundantFDiv, .reciprocalFDiv, .mergeDivDiv, .mergeDivMul, .mergeDivNegate,
      .mergeDoubleNegative, .reassociateMulDiv]
   | .fmod => [.redundantFMod]
   | .fmul => [.redundantFMul, .mergeMulMul, .mergeMulDiv, .mergeMulNegate, .mergeDoubleNegative,
      .reassociateMulDiv]
   | .vts => [.mergeDoubleNegative]
   | .fneg => [.mergeNegate, .mergeNegateAddSub, .mergeNegateMulDiv]
   | .fsub => [.redundantFSub, .mergeSubNegate, .mergeSubAdd, .mergeSubSub, .reassociateAddSub,
      .factorAddSubMuls]
   | .iadd => [.mergeAddNegate, .mergeAddAdd, .mergeAddSub, .mergeGenericAddSub,
      .reassociateAddSub, .factorAddSubMuls]
   | .imul => [.intMultipleBy1, .mergeMulMul, .mergeMulNegate, .mergeDoubleNegative]
   | .isub => [.mergeSubNegate, .mergeSubAdd, .mergeSubSub, .reassociateAddSub, .factorAddSubMuls]
   | .and => [.redundantAndOrXor, .redundantAndAddSub, .redundantAndShift]
   | .sneg => [.mergeNegate, .mergeNegateMulDiv, .mergeNegateAddSub]
   | .select => [.redundantSelect, .constantBooleanSelect]
   | .land => [.redundantAnd]
   | .lor => [.redundantOr]
   | .lnot => [.redundantNot, .notComparison]
   | .leq => [.redundantLogicalEqual]
   | .lne => [.redundantLogicalEqual]
   | .fmix => [.redundantFMix]
   | _ => [])

/-- The loop over the rules (`InstructionFolder::FoldInstructionInternal`,
`/repo/source/opt/fold.cpp`:180-200): the first rule that applies is the one applied. -/
def firstRule [FloatSem F] [DecidableEq F] (env : Env F) (d : Inst) : List Rule → Out (New F)
  | [] => .no
  | r :: rs =>
    match r.run env d with
    | .no => firstRule env d rs
    | x => x

/-- What the algebraic rules make of an instruction. -/
def applyRules [FloatSem F] [DecidableEq F] (env : Env F) (d : Inst) : Out (New F) :=
  firstRule env d (rulesFor d.op)

end Verif.Rules
