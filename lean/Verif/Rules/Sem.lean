/-!
# Values and the meaning of arithmetic instructions

The part of the SPIR-V specification the algebraic folding rules rely on: what `OpIAdd`, `OpFDiv`,
`OpSelect` and so on compute, lane by lane, on scalars and vectors.  Nothing here is taken from
the optimizer.

Integers are bit vectors of any width.  Floating-point numbers are the elements of an arbitrary
field: the rules for floating-point instructions are only meant to hold up to rounding (that is
what `NoContraction` switches off), so they are judged in exact arithmetic; -0 is 0, and there are
no infinities.  Dividing by zero leaves exact arithmetic; it is treated like undefined behaviour:
nothing is claimed of an execution that does it, but no rewriting may introduce it.  Comparisons of floating-point numbers are an arbitrary four-valued function, so
NaN-like operands (unordered with everything) are covered where rules only reorder comparisons.
-/
namespace Verif.Rules
open Lean.Grind (Field)

/-- Component types.  `other k` stands for every type that is not numerical and not boolean, with
the id `k` of the type. -/
inductive Base
  | int (w : Nat) (signed : Bool)
  | float (w : Nat)
  | bool
  | other (k : Nat)
  deriving DecidableEq, Repr

/-- Types: a scalar (`vec = none`) or a vector with so many components. -/
structure Ty where
  base : Base
  vec : Option Nat
  deriving DecidableEq, Repr

/-- The number of lanes. -/
def Ty.n (t : Ty) : Nat := t.vec.getD 1

/-- Scalar values. -/
inductive SV (F : Type)
  | i (w : Nat) (v : BitVec w)
  | f (x : F)
  | b (v : Bool)
  | o (k : Nat)
  deriving DecidableEq

/-- Values: one scalar per lane. -/
abbrev Val (F : Type) := List (SV F)

/-- Outcome of comparing two floating-point numbers. -/
inductive Cmp
  | lt
  | eq
  | gt
  | un
  deriving DecidableEq, Repr

/-- What is left open about floating-point numbers: comparison and `OpFMod`. -/
class FloatSem (F : Type) extends Field F where
  cmp : F → F → Cmp
  fmod : F → F → F
  fmod_zero : ∀ y, fmod 0 y = 0

/-- Integer comparisons. -/
inductive ICmp
  | eq | ne | ugt | ule | uge | ult | sgt | sle | sge | slt
  deriving DecidableEq, Repr

/-- Floating-point comparisons: ordered or unordered. -/
inductive FCmpKind
  | eq | ne | lt | gt | le | ge
  deriving DecidableEq, Repr

/-- Opcodes.  `other` is every instruction not interpreted here (constants, loads, calls, phis as
operands, ...). -/
inductive Op
  | fadd | fsub | fmul | fdiv | fneg | fmod | fmix | vts
  | iadd | isub | imul | sneg | sdiv | udiv | smod | umod
  | and | or | xor | shl | shr | sar
  | icmp (k : ICmp)
  | fcmp (ord : Bool) (k : FCmpKind)
  | land | lor | lnot | leq | lne
  | select | copy | bitcast
  | shuffle (idx : List Nat)
  | other (k : Nat)
  deriving DecidableEq, Repr

/-- What one lane of an instruction does: the whole instruction has undefined behaviour (this also
stands for ill-typed operands), the lane holds a value not known here (the instruction is not
interpreted), it holds an unspecified value of the type of `like`, or it holds this value. -/
inductive R (F : Type)
  | ub
  | any
  | undef (like : SV F)
  | ok (v : SV F)
  deriving DecidableEq

variable {F : Type}

/-- Has the scalar this component type? -/
def SV.hasTy (b : Base) : SV F → Bool
  | .i w _ => match b with | .int w' _ => decide (w = w') | _ => false
  | .f _ => match b with | .float _ => true | _ => false
  | .b _ => match b with | .bool => true | _ => false
  | .o _ => match b with | .other _ => true | _ => false

/-- A result must have the result type. -/
def R.check (b : Base) : R F → R F
  | .ok v => if v.hasTy b then .ok v else .ub
  | .undef u => if u.hasTy b then .undef u else .ub
  | r => r

/-- May the lane hold `v` (of component type `b`)? -/
def R.allows (b : Base) : R F → SV F → Prop
  | .ub, _ => False
  | .any, v => v.hasTy b = true
  | .undef _, v => v.hasTy b = true
  | .ok u, v => v = u

/-- Lane `i` of a value that may not be there. -/
def ln (x : Option (Val F)) (i : Nat) : Option (SV F) := x.bind (·[i]?)

/-- Lane `i` of a condition, which may be scalar. -/
def bc (x : Option (Val F)) (i : Nat) : Option (SV F) :=
  x.bind fun v => if v.length = 1 then v[0]? else v[i]?

/-- Lift functions on floats, integers, booleans. -/
def f1 (g : F → R F) : Option (SV F) → R F
  | some (.f a) => g a
  | _ => .ub

def f2 (g : F → F → R F) : Option (SV F) → Option (SV F) → R F
  | some (.f a), some (.f b) => g a b
  | _, _ => .ub

def i1 (g : ∀ w, BitVec w → R F) : Option (SV F) → R F
  | some (.i w a) => g w a
  | _ => .ub

def i2 (g : ∀ w, BitVec w → BitVec w → R F) : Option (SV F) → Option (SV F) → R F
  | some (.i w a), some (.i w' b) => if h : w' = w then g w a (h ▸ b) else .ub
  | _, _ => .ub

def b1 (g : Bool → R F) : Option (SV F) → R F
  | some (.b a) => g a
  | _ => .ub

def b2 (g : Bool → Bool → R F) : Option (SV F) → Option (SV F) → R F
  | some (.b a), some (.b b) => g a b
  | _, _ => .ub

/-- Shifts: the amount may have another width; too large amounts give an unspecified value. -/
def sh (g : ∀ w, BitVec w → Nat → BitVec w) : Option (SV F) → Option (SV F) → R F
  | some (.i w a), some (.i _ s) => if s.toNat < w then .ok (.i w (g w a s.toNat)) else .undef (.i w a)
  | _, _ => .ub

def ICmp.eval (k : ICmp) {w : Nat} (a b : BitVec w) : Bool :=
  match k with
  | .eq => a == b
  | .ne => a != b
  | .ugt => b.ult a
  | .ule => a.ule b
  | .uge => b.ule a
  | .ult => a.ult b
  | .sgt => b.slt a
  | .sle => a.sle b
  | .sge => b.sle a
  | .slt => a.slt b

def FCmpKind.eval (ord : Bool) (k : FCmpKind) (c : Cmp) : Bool :=
  match c with
  | .un => !ord
  | .lt => match k with | .ne | .lt | .le => true | _ => false
  | .eq => match k with | .eq | .le | .ge => true | _ => false
  | .gt => match k with | .ne | .gt | .ge => true | _ => false

/-- Signed division has undefined behaviour for these operands. -/
def sdivUB {w : Nat} (a b : BitVec w) : Bool :=
  b == 0#w || (a == BitVec.intMin w && b == BitVec.allOnes w)

variable [FloatSem F] [DecidableEq F]

/-- Lane `i` of the result of an instruction, before the result type is looked at (except by
`OpBitcast` and `OpSelect`). -/
def raw (op : Op) (ty : Ty) (args : List (Option (Val F))) (i : Nat) : R F :=
  match op, args with
  | .fadd, [x, y] => f2 (fun a b => .ok (.f (a + b))) (ln x i) (ln y i)
  | .fsub, [x, y] => f2 (fun a b => .ok (.f (a - b))) (ln x i) (ln y i)
  | .fmul, [x, y] => f2 (fun a b => .ok (.f (a * b))) (ln x i) (ln y i)
  | .fdiv, [x, y] => f2 (fun a b => if b = 0 then .ub else .ok (.f (a / b))) (ln x i) (ln y i)
  | .fneg, [x] => f1 (fun a => .ok (.f (-a))) (ln x i)
  | .fmod, [x, y] =>
    f2 (fun a b => if b = 0 then .ub else .ok (.f (FloatSem.fmod a b))) (ln x i) (ln y i)
  | .fmix, [x, y, z] =>
    match ln z i with
    | some (.f c) => f2 (fun a b => .ok (.f (a * (1 - c) + b * c))) (ln x i) (ln y i)
    | _ => .ub
  | .vts, [x, y] => f2 (fun a b => .ok (.f (a * b))) (ln x i) (ln y 0)
  | .iadd, [x, y] => i2 (fun w a b => .ok (.i w (a + b))) (ln x i) (ln y i)
  | .isub, [x, y] => i2 (fun w a b => .ok (.i w (a - b))) (ln x i) (ln y i)
  | .imul, [x, y] => i2 (fun w a b => .ok (.i w (a * b))) (ln x i) (ln y i)
  | .sneg, [x] => i1 (fun w a => .ok (.i w (-a))) (ln x i)
  | .sdiv, [x, y] =>
    i2 (fun w a b => if sdivUB a b then .ub else .ok (.i w (a.sdiv b))) (ln x i) (ln y i)
  | .udiv, [x, y] =>
    i2 (fun w a b => if b = 0#w then .ub else .ok (.i w (a / b))) (ln x i) (ln y i)
  | .smod, [x, y] =>
    i2 (fun w a b => if sdivUB a b then .ub else .ok (.i w (a.smod b))) (ln x i) (ln y i)
  | .umod, [x, y] =>
    i2 (fun w a b => if b = 0#w then .ub else .ok (.i w (a % b))) (ln x i) (ln y i)
  | .and, [x, y] => i2 (fun w a b => .ok (.i w (a &&& b))) (ln x i) (ln y i)
  | .or, [x, y] => i2 (fun w a b => .ok (.i w (a ||| b))) (ln x i) (ln y i)
  | .xor, [x, y] => i2 (fun w a b => .ok (.i w (a ^^^ b))) (ln x i) (ln y i)
  | .shl, [x, y] => sh (fun _ a s => a <<< s) (ln x i) (ln y i)
  | .shr, [x, y] => sh (fun _ a s => a >>> s) (ln x i) (ln y i)
  | .sar, [x, y] => sh (fun _ a s => a.sshiftRight s) (ln x i) (ln y i)
  | .icmp k, [x, y] => i2 (fun _ a b => .ok (.b (k.eval a b))) (ln x i) (ln y i)
  | .fcmp o k, [x, y] =>
    f2 (fun a b => .ok (.b (k.eval o (FloatSem.cmp a b)))) (ln x i) (ln y i)
  | .land, [x, y] => b2 (fun a b => .ok (.b (a && b))) (ln x i) (ln y i)
  | .lor, [x, y] => b2 (fun a b => .ok (.b (a || b))) (ln x i) (ln y i)
  | .lnot, [x] => b1 (fun a => .ok (.b !a)) (ln x i)
  | .leq, [x, y] => b2 (fun a b => .ok (.b (a == b))) (ln x i) (ln y i)
  | .lne, [x, y] => b2 (fun a b => .ok (.b (a != b))) (ln x i) (ln y i)
  | .select, [c, x, y] =>
    if x.map List.length = some ty.n ∧ y.map List.length = some ty.n ∧
        (c.map List.length = some 1 ∨ c.map List.length = some ty.n) then
      match bc c i, ln x i, ln y i with
      | some (.b k), some u, some v =>
        if u.hasTy ty.base && v.hasTy ty.base then .ok (if k then u else v) else .ub
      | _, _, _ => .ub
    else .ub
  | .copy, [x] => match ln x i with | some v => .ok v | none => .ub
  | .bitcast, [x] =>
    match ty.base, ln x i with
    | .int w _, some (.i w' v) => if w = w' then .ok (.i w' v) else .any
    | _, _ => .any
  | .shuffle idx, [some x, some y] =>
    match idx[i]? with
    | none => .ub
    | some k =>
      if k = 0xFFFFFFFF then .any
      else match (x ++ y)[k]? with | some v => .ok v | none => .ub
  | .other _, _ => .any
  | _, _ => .ub

/-- Lane `i` of the result of an instruction of type `ty`. -/
def lane (op : Op) (ty : Ty) (args : List (Option (Val F))) (i : Nat) : R F :=
  (raw op ty args i).check ty.base

/-- The instruction has undefined behaviour on these operands. -/
def UB (op : Op) (ty : Ty) (args : List (Option (Val F))) : Prop :=
  ∃ i, i < ty.n ∧ lane op ty args i = .ub

/-- The instruction may produce `v`. -/
def Result (op : Op) (ty : Ty) (args : List (Option (Val F))) (v : Val F) : Prop :=
  v.length = ty.n ∧ ∀ i, i < ty.n → ∃ s, v[i]? = some s ∧ (lane op ty args i).allows ty.base s

end Verif.Rules
