import Verif.Vn.Model

/-
# Specification: what a function computes, before and after instructions are removed

Executions are traces of points: `(b, 0)` is the entry of block `b`, where its phis take
their values, `(b, k+1)` the execution of its `k`-th instruction.  Every walk through the
control flow graph from the entry is a trace.
-/

namespace Verif.Vn

abbrev Pt := Block × Nat

/-- The walks through the control flow graph, latest point first. -/
inductive Trace (P : Prog) : List Pt → Prop
  | start : Trace P [(P.entry, 0)]
  | step {b k t} : Trace P ((b, k) :: t) → k < (P.insts b).length →
      Trace P ((b, k + 1) :: (b, k) :: t)
  | edge {b k t c} : Trace P ((b, k) :: t) → k = (P.insts b).length → b ∈ P.preds c →
      Trace P ((c, 0) :: (b, k) :: t)

/-- The ids an operand list mentions. -/
def ids (ops : List Opnd) : List Id := ops.filterMap fun o => match o with
  | .id x => some x
  | .lit _ => none

/-- `x` is the result of instruction `i` of block `b`, computed at `q`: a phi at the entry
of the block, any other instruction when its turn comes. -/
def DefBy (P : Prog) (x : Id) (i : Inst) (q : Pt) : Prop :=
  x ≠ 0 ∧ i.result = x ∧ ∃ k, (P.insts q.1)[k]? = some i ∧
    q.2 = if i.op = "OpPhi" then 0 else k + 1

def DefAt (P : Prog) (x : Id) (q : Pt) : Prop := ∃ i, DefBy P x i q

/-- `x` was computed on the trace, or the module does not compute it (a parameter, say). -/
def OnTrace (P : Prog) (x : Id) (t : List Pt) : Prop :=
  (∃ q ∈ t, DefAt P x q) ∨ ∀ q : Pt, q.1 ∈ P.order → ¬ DefAt P x q

/-- `x` is computed on every walk to `q`. -/
def Av (P : Prog) (q : Pt) (x : Id) : Prop :=
  ∀ t, Trace P (q :: t) → ∃ d ∈ q :: t, DefAt P x d

/-- What an instruction works on. -/
inductive Arg (Val : Type) where
  | val (x : Val)
  | lit (ws : List Nat)

/-- The meaning of instructions.  `val i t args` is what `i` yields when it is executed at
the end of the trace `t`: memory, other invocations and so on may make it depend on the
whole past. -/
structure Sem (Val : Type) where
  val : Inst → List Pt → List (Arg Val) → Val
  /-- the meaning of instructions that do not depend on the past -/
  fn : String → Id → List Nat → List (Arg Val) → Val

section
variable {Val : Type} (P : Prog) (S : Sem Val) (rep : List (Id × Id))

/-- The id used in place of `x`. -/
def use (x : Id) : Id := (rep.lookup x).getD x

/-- The instruction was removed. -/
def killed (i : Inst) : Bool := (rep.lookup i.result).isSome

def Opnd.eval (env : Id → Val) : Opnd → Arg Val
  | .id x => .val (env (use rep x))
  | .lit ws => .lit ws

/-- The phi of block `b` that defines `y`. -/
def phiOf (b : Block) (y : Id) : Option Inst :=
  (P.insts b).find? fun i => i.op == "OpPhi" && i.result == y

/-- Entering `b` from `p`: all phis of `b` read their operands at once. -/
def enter (b p : Block) (env : Id → Val) (y : Id) : Val :=
  match phiOf P b y with
  | none => env y
  | some i =>
    if killed rep i then env y
    else match (phiArgs i.ops).find? fun a => a.2 == p with
      | none => env y
      | some a => env (use rep a.1)

/-- The values of the ids after a trace, when the instructions in `rep` are removed and
uses of their ids are replaced; `run P S []` is the function as it was. -/
def run (G : Id → Val) : List Pt → (Id → Val)
  | [] => G
  | [(_, 0)] => G
  | (b, 0) :: (p, k) :: t => enter P rep b p (run G ((p, k) :: t))
  | (b, k + 1) :: t =>
    match (P.insts b)[k]? with
    | none => run G t
    | some i =>
      if i.op = "OpPhi" ∨ i.result = 0 ∨ killed rep i then run G t
      else fun y =>
        if y = i.result then S.val i ((b, k + 1) :: t) (i.ops.map (Opnd.eval rep (run G t)))
        else run G t y

end

/-- A load that must not be merged with another one (memory operand `Volatile`). -/
def isVolatile (i : Inst) : Bool := match i.op == "OpLoad", i.ops with
  | true, [_, .lit (m :: _)] => m % 2 == 1
  | _, _ => false

/-- The instructions that read memory or an image (SPIR-V specification, 3.49.8 and 3.49.10);
`OpImageSparseTexelsResident` only looks at a residency code. -/
def reads (op : String) : Bool :=
  ["OpLoad", "OpImageSampleExplicitLod", "OpImageSampleImplicitLod", "OpImageSampleDrefImplicitLod",
   "OpImageSampleDrefExplicitLod", "OpImageSampleProjImplicitLod", "OpImageSampleProjExplicitLod",
   "OpImageSampleProjDrefImplicitLod", "OpImageSampleProjDrefExplicitLod",
   "OpImageSampleFootprintNV", "OpImageFetch", "OpImageGather", "OpImageDrefGather", "OpImageRead",
   "OpImageSparseSampleImplicitLod", "OpImageSparseSampleExplicitLod",
   "OpImageSparseSampleDrefExplicitLod", "OpImageSparseSampleDrefImplicitLod",
   "OpImageSparseFetch", "OpImageSparseGather", "OpImageSparseDrefGather",
   "OpImageSparseRead"].contains op

/-- The binary operations whose two operands may be exchanged. -/
def commutes (op : String) : Bool :=
  ["OpPtrEqual", "OpPtrNotEqual", "OpIAdd", "OpFAdd", "OpIMul", "OpFMul", "OpDot", "OpIAddCarry",
   "OpUMulExtended", "OpSMulExtended", "OpBitwiseOr", "OpBitwiseXor", "OpBitwiseAnd", "OpOrdered",
   "OpUnordered", "OpLogicalEqual", "OpLogicalNotEqual", "OpLogicalOr", "OpLogicalAnd", "OpIEqual",
   "OpINotEqual", "OpFOrdEqual", "OpFUnordEqual", "OpFOrdNotEqual", "OpFUnordNotEqual"].contains op

/-- Instructions whose result the SPIR-V specification makes a function of their operands:
the combinators, except that a variable is a new object each time it is declared and a
load depends on memory, unless that is read-only and the load not volatile. -/
def Functional (P : Prog) (i : Inst) : Prop :=
  (isCombinator P i ∨ P.debug i) ∧ i.op ≠ "OpVariable" ∧ i.op ≠ "OpUntypedVariableKHR" ∧
    (reads i.op → i.readOnly ∧ isVolatile i = false)

/-- What is assumed of the meaning of instructions. -/
structure Sem.Ok {Val : Type} (S : Sem Val) (P : Prog) : Prop where
  functional : ∀ i t args, Functional P i → S.val i t args = S.fn i.op i.ty (P.deco i.result) args
  copy : ∀ i t x args, i.op = "OpCopyObject" → S.val i t (.val x :: args) = x
  comm : ∀ op ty d a b, commutes op = true → S.fn op ty d [a, b] = S.fn op ty d [b, a]

/-- A valid module in SSA form.  Blocks no path reaches (those of other functions among
them) need only have ids of their own. -/
structure Valid (P : Prog) : Prop where
  entry_mem : P.entry ∈ P.order
  entry_preds : P.preds P.entry = []
  closed : ∀ b ∈ P.order, ∀ c, b ∈ P.preds c → c ∈ P.order
  nodup : P.order.Nodup
  /-- ids are defined once -/
  unique : ∀ b b' (k k' : Nat) (i i' : Inst), b ∈ P.order → b' ∈ P.order → (P.insts b)[k]? = some i →
    (P.insts b')[k']? = some i' → i.result = i'.result → i.result ≠ 0 → b = b' ∧ k = k'
  /-- whatever path leads to an instruction, its operands have been computed on it -/
  doms : ∀ b k t (i : Inst) x, Trace P ((b, k) :: t) → (P.insts b)[k]? = some i → i.op ≠ "OpPhi" →
    x ∈ ids i.ops → OnTrace P x ((b, k) :: t)
  /-- and stand before it in the module -/
  before : ∀ b k t (i : Inst) x, Trace P ((b, k) :: t) → (P.insts b)[k]? = some i → i.op ≠ "OpPhi" →
    i.result ≠ 0 → x ∈ ids i.ops → x ∈ (listing P).map Inst.result →
    ∃ u w, listing P = u ++ i :: w ∧ x ∈ u.map Inst.result
  /-- a phi is a list of values and predecessors -/
  phi_ops : ∀ b (k : Nat) (i : Inst), b ∈ P.order → (P.insts b)[k]? = some i → i.op = "OpPhi" → i.result ≠ 0 ∧
    i.ops = (phiArgs i.ops).flatMap fun a => [.id a.1, .id a.2]
  /-- it stands at the beginning of its block -/
  phi_first : ∀ b (k : Nat) (i : Inst), b ∈ P.order → (P.insts b)[k]? = some i → i.op = "OpPhi" →
    b ≠ P.entry ∧ ∀ j < k, ∃ i', (P.insts b)[j]? = some i' ∧ i'.op = "OpPhi"
  /-- its predecessors are those of its block -/
  phi_preds : ∀ b (k : Nat) t (i : Inst), Trace P ((b, 0) :: t) → (P.insts b)[k]? = some i → i.op = "OpPhi" →
    ∀ p, p ∈ P.preds b ↔ p ∈ (phiArgs i.ops).map Prod.snd
  phi_doms : ∀ b p (k : Nat) t (i : Inst) a, Trace P ((p, (P.insts p).length) :: t) → p ∈ P.preds b →
    (P.insts b)[k]? = some i → i.op = "OpPhi" → a ∈ phiArgs i.ops → a.2 = p →
    OnTrace P a.1 ((p, (P.insts p).length) :: t)
  /-- predecessors are blocks, not values -/
  labels : ∀ b (k : Nat) (i : Inst) a, b ∈ P.order → (P.insts b)[k]? = some i → i.op = "OpPhi" →
    a ∈ phiArgs i.ops → a.2 ∉ (listing P).map Inst.result
  /-- a copy has one operand -/
  copy_ops : ∀ b (k : Nat) (i : Inst), b ∈ P.order → (P.insts b)[k]? = some i → i.op = "OpCopyObject" →
    ∃ x, i.ops = [.id x]

/-- A tree of blocks in which parents dominate their children: whatever path leads to a
block, its parent was executed on it. -/
structure DomTree (P : Prog) (root : Block) (children : Block → List Block) : Prop where
  root_mem : root ∈ P.order
  mem : ∀ b c, c ∈ children b → b ∈ P.order → c ∈ P.order
  dom : ∀ b c t, c ∈ children b → Trace P ((c, 0) :: t) → (b, (P.insts b).length) ∈ t
  single : ∀ b b' c, c ∈ children b → c ∈ children b' → b = b'
  nodup : ∀ b, (children b).Nodup
  root_top : ∀ b, root ∉ children b

/-- No instruction that is shared although it is not a function of its operands. -/
def Clean (P : Prog) : Prop := ∀ b ∈ P.order, ∀ i ∈ P.insts b,
  i.op ≠ "OpUntypedVariableKHR" ∧ isVolatile i = false

end Verif.Vn
