import Verif.Fold.Model

/-!
# What SPIR-V says the integer and boolean instructions compute

Independent of the folder: values are booleans and bit vectors, and every operation is given by
its meaning on integers (`toNat` for unsigned, `toInt` for signed operands), reduced modulo the
result width.  `none` means that the SPIR-V specification leaves the result (or the behaviour)
undefined.  `Op`, `STy`, `Ty`, `Instr` and the constant data types are shared with the model.
-/

namespace Verif.Fold.Spec

/-- A scalar value. -/
inductive SVal where
  | bool (b : Bool)
  | int (w : Nat) (x : BitVec w)
deriving DecidableEq, Repr

/-- A value, by components; a scalar has exactly one. -/
abbrev Val := List SVal

/-- Component `k`; a scalar is broadcast (the condition of `OpSelect` may be a scalar). -/
def comp (k : Nat) (v : Val) : Option SVal :=
  match v with
  | [u] => some u
  | _ => v[k]?

/-- Component type and number of components of a type. -/
def elem : Ty → STy
  | .scalar t => t
  | .vec _ t => t
def dim : Ty → Nat
  | .scalar _ => 1
  | .vec n _ => n

/-- `u` is a value of scalar type `t`. -/
def HasSTy : SVal → STy → Prop
  | .bool _, .bool => True
  | .int w _, .int w' _ => w = w'
  | _, _ => False

/-- `v` is a value of type `ty`. -/
def HasTy (v : Val) (ty : Ty) : Prop := v.length = dim ty ∧ ∀ u ∈ v, HasSTy u (elem ty)

/-! ## Constants -/

/-- SPIR-V 2.2.1: literals of 32 bits or fewer take one word, sign-extended when the type is
signed and zero-extended otherwise; wider literals take two words, low-order word first. -/
def literalWords {w : Nat} (signed : Bool) (x : BitVec w) : List (BitVec 32) :=
  if w ≤ 32 then [if signed then x.signExtend 32 else x.setWidth 32]
  else [x.setWidth 32, (x >>> 32).setWidth 32]

/-- The constant `c` denotes the value `u`. -/
def SDenotes : SConst → SVal → Prop
  | .int w s ws, .int w' x => w = w' ∧ ws = literalWords s x
  | .bool b, .bool b' => b = b'
  | .null (.int w _), .int w' x => w = w' ∧ x = 0#w'
  | .null .bool, .bool b => b = false
  | _, _ => False

/-- The constant `c` denotes the value `v`. -/
def Denotes : Const → Val → Prop
  | .scalar c, v => ∃ u, v = [u] ∧ SDenotes c u
  | .vec _ cs, v => cs.length = v.length ∧ ∀ (k : Nat) c u, cs[k]? = some c → v[k]? = some u → SDenotes c u
  | .nullVec n t, v => v.length = n ∧ ∀ u ∈ v, SDenotes (.null t) u

/-- The constant is declared with type `ty`. -/
def ConstHasTy : Const → Ty → Prop
  | .scalar c, .scalar t => c.ty = t
  | .vec t' cs, .vec n t => t' = t ∧ cs.length = n ∧ ∀ c ∈ cs, c.ty = t
  | .nullVec n' t', .vec n t => n' = n ∧ t' = t
  | _, _ => False

/-! ## The meaning of the opcodes -/

/-- Two integer operands to an integer, before reduction to the result width. -/
def intResult {w v : Nat} (op : Op) (a : BitVec w) (b : BitVec v) : Option Int :=
  match op with
  | .iAdd => some (a.toInt + b.toInt)
  | .iSub => some (a.toInt - b.toInt)
  | .iMul => some (a.toInt * b.toInt)
  | .uDiv => if b.toNat = 0 then none else some (a.toNat / b.toNat : Nat)
  | .uMod => if b.toNat = 0 then none else some (a.toNat % b.toNat : Nat)
  -- quotient rounded towards zero; remainder with the sign of the dividend; remainder with the
  -- sign of the divisor.  Undefined for a zero divisor and for the overflowing quotient.
  | .sDiv => if b.toInt = 0 ∨ (a.toInt = -2 ^ (w - 1) ∧ b.toInt = -1) then none
             else some (a.toInt.tdiv b.toInt)
  | .sRem => if b.toInt = 0 ∨ (a.toInt = -2 ^ (w - 1) ∧ b.toInt = -1) then none
             else some (a.toInt.tmod b.toInt)
  | .sMod => if b.toInt = 0 ∨ (a.toInt = -2 ^ (w - 1) ∧ b.toInt = -1) then none
             else some (a.toInt.fmod b.toInt)
  -- undefined for amounts above the width
  | .shiftRightLogical => if w < b.toNat then none else some (a.toNat / 2 ^ b.toNat : Nat)
  | .shiftRightArithmetic => if w < b.toNat then none else some (a.toInt.fdiv (2 ^ b.toNat))
  | .shiftLeftLogical => if w < b.toNat then none else some (a.toNat * 2 ^ b.toNat : Nat)
  | .bitwiseOr => some (a.toNat ||| b.toNat : Nat)
  | .bitwiseAnd => some (a.toNat &&& b.toNat : Nat)
  | .bitwiseXor => some (a.toNat ^^^ b.toNat : Nat)
  | .sMin => some (min a.toInt b.toInt)
  | .sMax => some (max a.toInt b.toInt)
  | .uMin => some (min a.toNat b.toNat : Nat)
  | .uMax => some (max a.toNat b.toNat : Nat)
  | _ => none

/-- Two integer operands to a boolean. -/
def intCompare {w v : Nat} (op : Op) (a : BitVec w) (b : BitVec v) : Option Bool :=
  match op with
  | .iEqual => some (a.toNat == b.toNat)
  | .iNotEqual => some (a.toNat != b.toNat)
  | .uLessThan => some (decide (a.toNat < b.toNat))
  | .sLessThan => some (decide (a.toInt < b.toInt))
  | .uGreaterThan => some (decide (a.toNat > b.toNat))
  | .sGreaterThan => some (decide (a.toInt > b.toInt))
  | .uLessThanEqual => some (decide (a.toNat ≤ b.toNat))
  | .sLessThanEqual => some (decide (a.toInt ≤ b.toInt))
  | .uGreaterThanEqual => some (decide (a.toNat ≥ b.toNat))
  | .sGreaterThanEqual => some (decide (a.toInt ≥ b.toInt))
  | _ => none

/-- One integer operand. -/
def intUnary {w : Nat} (op : Op) (a : BitVec w) : Option Int :=
  match op with
  | .sNegate => some (- a.toInt)
  | .not => some (-1 - a.toInt)
  | .uConvert => some (a.toNat : Nat)
  | .sConvert => some a.toInt
  | _ => none

/-- Three integer operands: clamping, undefined when the bounds are in the wrong order. -/
def intTernary {w v u : Nat} (op : Op) (x : BitVec w) (lo : BitVec v) (hi : BitVec u) :
    Option Int :=
  match op with
  | .sClamp => if hi.toInt < lo.toInt then none
               else some (min (max x.toInt lo.toInt) hi.toInt)
  | .uClamp => if hi.toNat < lo.toNat then none
               else some (min (max x.toNat lo.toNat) hi.toNat : Nat)
  | _ => none

def boolBinary (op : Op) (a b : Bool) : Option Bool :=
  match op with
  | .logicalEqual => some (a == b)
  | .logicalNotEqual => some (a != b)
  | .logicalOr => some (a || b)
  | .logicalAnd => some (a && b)
  | _ => none

/-- The result of an instruction on scalars. -/
def scalar (op : Op) (t : STy) (args : List SVal) : Option SVal :=
  match t, args with
  | .int w _, [.int _ a, .int _ b] => (intResult op a b).map fun n => .int w (BitVec.ofInt w n)
  | .bool, [.int _ a, .int _ b] => (intCompare op a b).map .bool
  | .bool, [.bool a, .bool b] => (boolBinary op a b).map .bool
  | .int w _, [.int _ a] => (intUnary op a).map fun n => .int w (BitVec.ofInt w n)
  | .bool, [.bool a] => if op = .logicalNot then some (.bool (!a)) else none
  | .int w _, [.int _ x, .int _ lo, .int _ hi] =>
      (intTernary op x lo hi).map fun n => .int w (BitVec.ofInt w n)
  | _, [.bool c, u, v] => if op = .select then some (if c then u else v) else none
  | _, _ => none

/-- `v` is a possible result of `op` at type `ty` on `args`: it has the type, and each component
whose value the specification defines has that value. -/
def Result (op : Op) (ty : Ty) (args : List Val) (v : Val) : Prop :=
  HasTy v ty ∧
  ∀ k, k < dim ty → ∀ us, args.mapM (comp k) = some us →
    ∀ r, scalar op (elem ty) us = some r → v[k]? = some r

/-! ## Valid instructions -/

/-- Integer widths SPIR-V modules may declare. -/
def Width (w : Nat) : Prop := w = 8 ∨ w = 16 ∨ w = 32 ∨ w = 64

instance (w : Nat) : Decidable (Width w) := by unfold Width; infer_instance

/-- All of the operand's types agree with the typing rule on component types. -/
def elemRule (op : Op) (t : STy) (as : List STy) : Prop :=
  match op with
  | .iAdd | .iSub | .iMul | .sDiv | .sRem | .sMod | .bitwiseOr | .bitwiseAnd | .bitwiseXor
  | .sMin | .uMin | .sMax | .uMax =>
      ∃ w s s1 s2, Width w ∧ t = .int w s ∧ as = [.int w s1, .int w s2]
  | .uDiv | .uMod => ∃ w, Width w ∧ t = .int w false ∧ as = [.int w false, .int w false]
  | .shiftRightLogical | .shiftRightArithmetic | .shiftLeftLogical =>
      ∃ w s s1 w2 s2, Width w ∧ Width w2 ∧ t = .int w s ∧ as = [.int w s1, .int w2 s2]
  | .logicalEqual | .logicalNotEqual | .logicalOr | .logicalAnd =>
      t = .bool ∧ as = [.bool, .bool]
  | .iEqual | .iNotEqual | .uLessThan | .sLessThan | .uGreaterThan | .sGreaterThan
  | .uLessThanEqual | .sLessThanEqual | .uGreaterThanEqual | .sGreaterThanEqual =>
      ∃ w s1 s2, Width w ∧ t = .bool ∧ as = [.int w s1, .int w s2]
  | .sNegate | .not => ∃ w s s1, Width w ∧ t = .int w s ∧ as = [.int w s1]
  | .logicalNot => t = .bool ∧ as = [.bool]
  | .uConvert => ∃ w w1 s1, Width w ∧ Width w1 ∧ w ≠ w1 ∧ t = .int w false ∧ as = [.int w1 s1]
  | .sConvert => ∃ w s w1 s1, Width w ∧ Width w1 ∧ w ≠ w1 ∧ t = .int w s ∧ as = [.int w1 s1]
  | .select => (∀ w s, t = .int w s → Width w) ∧ as = [.bool, t, t]
  | .sClamp | .uClamp =>
      ∃ w s s1 s2 s3, Width w ∧ t = .int w s ∧ as = [.int w s1, .int w s2, .int w s3]

/-- Operands have as many components as the result; only the condition of `OpSelect` may be a
scalar while the result is a vector. -/
def shapeRule (op : Op) (ty : Ty) (as : List Ty) : Prop :=
  match ty with
  | .scalar _ => ∀ a ∈ as, ∃ t, a = .scalar t
  | .vec n _ => 2 ≤ n ∧ (∀ a ∈ as, (∃ t, a = .vec n t) ∨ (op = .select ∧ a = .scalar .bool)) ∧
      ∀ a ∈ as.drop 1, ∃ t, a = .vec n t

/-- The instruction satisfies the typing rules of its opcode. -/
def WellTyped (i : Instr) : Prop :=
  elemRule i.op (elem i.ty) (i.args.map fun o => elem o.ty) ∧
  shapeRule i.op i.ty (i.args.map fun o => o.ty)

/-- Negation of every component. -/
def negVal (v : Val) : Val :=
  v.map fun u => match u with
    | .int w x => .int w (BitVec.ofInt w (- x.toInt))
    | .bool b => .bool b

/-- `ρ` gives every id the value it has in some execution: operands have their types, constants
have the value they denote, and an id defined by `OpSNegate` is the negation of its operand. -/
def Consistent (i : Instr) (ρ : Nat → Val) : Prop :=
  ∀ o ∈ i.args, HasTy (ρ o.id) o.ty ∧
    (∀ c, o.const = some c → ConstHasTy c o.ty ∧ Denotes c (ρ o.id)) ∧
    (∀ j, o.negOf = some j → ρ o.id = negVal (ρ j))

/-- In the execution `ρ` the constant `c` may stand for the result of the instruction: it is
declared with the result type and denotes a value the instruction may produce. -/
def Replaces (i : Instr) (ρ : Nat → Val) (c : Const) : Prop :=
  ConstHasTy c i.ty ∧ ∃ v, Denotes c v ∧ Result i.op i.ty (i.args.map fun o => ρ o.id) v

/-! ## The cases in which the folder departs from SPIR-V -/

/-- Some component of `v` is the smallest integer of its width. -/
def HasMin (v : Val) : Prop := ∃ w x, SVal.int w x ∈ v ∧ x.toInt = -2 ^ (w - 1)

/-- The instruction avoids the cases where the folder is known to compute a different value; each
exclusion is shown necessary by a counterexample next to the main theorem. -/
structure Avoids (i : Instr) (ρ : Nat → Val) : Prop where
  /-- `OpSMod` by a negative divisor leaves a non-zero remainder. -/
  smod : i.op = .sMod → ∀ x y, i.args = [x, y] → ∀ (k w v : Nat) (a : BitVec w) (b : BitVec v),
    (ρ x.id)[k]? = some (.int w a) → (ρ y.id)[k]? = some (.int v b) →
    b.toInt < 0 → a.toInt.tmod b.toInt ≠ 0
  /-- Signed operations do not see operands of an unsigned type of 8 or 16 bits. -/
  narrow : i.op = .sDiv ∨ i.op = .sRem ∨ i.op = .sMod ∨ i.op = .sConvert →
    ∀ o ∈ i.args, ∀ w, elem o.ty = .int w false → 32 ≤ w
  /-- The signed and unsigned GLSL.std.450 instructions are used at types of that signedness. -/
  minmaxS : i.op = .sMin ∨ i.op = .sMax ∨ i.op = .sClamp →
    ∃ w, elem i.ty = .int w true ∧ ∀ o ∈ i.args, elem o.ty = .int w true
  minmaxU : i.op = .uMin ∨ i.op = .uMax ∨ i.op = .uClamp →
    ∃ w, elem i.ty = .int w false ∧ ∀ o ∈ i.args, elem o.ty = .int w false
  /-- Negation does not change the signedness of a vector type. -/
  negvec : i.op = .sNegate → ∀ n t, i.ty = .vec n t → ∀ o ∈ i.args, o.ty = i.ty
  /-- `-x / x` and `x / -x` are not folded for the smallest integer. -/
  negmin : i.op = .sDiv → ∀ x y, i.args = [x, y] →
    (x.negOf = some y.id → ¬ HasMin (ρ y.id)) ∧ (y.negOf = some x.id → ¬ HasMin (ρ x.id))

/-- The instruction avoids the cases where folding it executes undefined host behaviour or trips
an assertion. -/
structure Safe (i : Instr) (ρ : Nat → Val) : Prop where
  /-- 64-bit signed division does not overflow. -/
  div64 : i.op = .sDiv ∨ i.op = .sRem ∨ i.op = .sMod → ∀ x y, i.args = [x, y] →
    ∀ (k : Nat) (a b : BitVec 64),
    (ρ x.id)[k]? = some (.int 64 a) → (ρ y.id)[k]? = some (.int 64 b) →
    ¬ (a.toInt = -2 ^ 63 ∧ b.toInt = -1)
  /-- 64-bit negation does not overflow. -/
  neg64 : i.op = .sNegate → ∀ x, i.args = [x] →
    ∀ (a : BitVec 64), SVal.int 64 a ∈ ρ x.id → a.toInt ≠ -2 ^ 63
  /-- No vector constant has a null constant among its components. -/
  nullComp : ∀ o ∈ i.args, ∀ t cs, o.const = some (.vec t cs) → ∀ t', SConst.null t' ∉ cs

end Verif.Fold.Spec
