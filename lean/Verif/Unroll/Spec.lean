import Verif.Unroll.Model
/-!
# What unrolling a loop should mean
-/

namespace Verif.Unroll.Spec

/-- Runs of the loop as written: the code before the decision, the decision, the code after it, the
step, over and over. -/
inductive Runs (l : Loop w σ) : BitVec w × σ → BitVec w × σ → Prop where
  | leave {x s} : l.stays x = false → Runs l (x, s) (x, l.pre x s)
  | again {x s r} : l.stays x = true →
      Runs l (l.next x, l.post x (l.pre x s)) r → Runs l (x, s) r

/-- The induction value at the start of iteration `k`, counted from zero. -/
def at_ (l : Loop w σ) : Nat → BitVec w
  | 0 => l.init
  | k + 1 => l.next (at_ l k)

/-- The loop is left after exactly `n` iterations. -/
def Trips (l : Loop w σ) (n : Nat) : Prop :=
  (∀ k < n, l.stays (at_ l k) = true) ∧ l.stays (at_ l n) = false

/-- The number a bit pattern stands for. -/
def num (signed : Bool) (x : BitVec w) : Int := if signed then x.toInt else x.toNat

/-- The numbers of `w` bits. -/
def InRange (signed : Bool) (w : Nat) (v : Int) : Prop :=
  if signed then -2 ^ (w - 1) ≤ v ∧ v < 2 ^ (w - 1) else 0 ≤ v ∧ v < 2 ^ w

/-- The words of an integer constant: SPIR-V specification 2.2.1, numbers narrower than their words
are sign- or zero-extended, low word first. -/
def words (signed : Bool) (b : BitVec w) : List Word :=
  if w ≤ 32 then [if signed then b.signExtend 32 else b.setWidth 32]
  else
    let v : BitVec 64 := if signed then b.signExtend 64 else b.setWidth 64
    [v.setWidth 32, (v >>> 32).setWidth 32]

/-- `c` is the constant with the bits `b`. -/
def Denotes (c : IntConst) (b : BitVec w) : Prop :=
  c.width = w ∧ if c.null then b = 0 else c.words = words c.signed b

/-- The counter is that of the loop. -/
structure Describes (c : Counter) (l : Loop w σ) (cb ci cs : IntConst) : Prop where
  width : 0 < w ∧ (w ≤ 32 ∨ w = 64)
  rel : c.rel = l.rel
  sub : c.sub = l.sub
  bound : c.bound = some cb
  init : c.init = some ci
  step : c.step = some cs
  boundBits : Denotes cb l.bound
  initBits : Denotes ci l.init
  stepBits : Denotes cs l.step
  /-- `GetInductionStepOperation` (loop_descriptor.cpp:76-79) asks for an `OpConstant`. -/
  stepConst : cs.null = false

/-- The constant is read as the number the comparison takes it for. -/
def SameSign (signed : Bool) (c : IntConst) (b : BitVec w) : Prop :=
  (c.signed = signed ∧ (w ≤ 32 ∨ signed = true)) ∨ b.msb = false

/-- The step is a number of 32 bits. -/
def StepFits (c : IntConst) (b : BitVec w) : Prop :=
  w ≤ 32 ∨ if c.signed then -2 ^ 31 ≤ b.toInt ∧ b.toInt < 2 ^ 31 else b.toNat < 2 ^ 32

/-- By how much the induction variable changes, as a number. -/
def delta (c : IntConst) (l : Loop w σ) : Int :=
  if l.sub then -num c.signed l.step else num c.signed l.step

end Verif.Unroll.Spec
