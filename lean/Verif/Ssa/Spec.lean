import Verif.Ssa.Model

/-
# Specification: what the program computes before and after

Values are arbitrary, and so is what an instruction other than a load or a store does
with its operands.  Executions are traces of points; `(b, 0)` is the entry of block `b`,
`(b, k+1)` the execution of its `k`-th instruction.  Every walk through the control flow
graph is a trace, so a statement about all traces holds for whatever branches are taken.
-/

namespace Verif.Ssa

abbrev Pt := Block × Nat

/-- The walks through the control flow graph, latest point first. -/
inductive Trace (P : Prog) : List Pt → Prop
  | start : Trace P [(P.entry, 0)]
  | step {b k t} : Trace P ((b, k) :: t) → k < (P.insts b).length →
      Trace P ((b, k + 1) :: (b, k) :: t)
  | edge {b k t c} : Trace P ((b, k) :: t) → k = (P.insts b).length → b ∈ P.preds c →
      Trace P ((c, 0) :: (b, k) :: t)

/-- The id an instruction defines. -/
def Inst.result : Inst → Option Id
  | .store _ _ => none
  | .load r _ => some r
  | .other r _ => some r

/-- The values an instruction uses. -/
def Inst.operands : Inst → List Id
  | .store _ x => [x]
  | .load _ _ => []
  | .other _ ops => ops

/-- Instruction `k` of block `b` defines `x`. -/
def DefinedAt (P : Prog) (x : Id) (q : Pt) : Prop :=
  ∃ k i, q.2 = k + 1 ∧ (P.insts q.1)[k]? = some i ∧ i.result = some x

section
variable {Val : Type} (F : Id → List Val → Val)

/-- One instruction before the rewriting: ids and memory. -/
def exec : Inst → (Id → Val) × (Var → Val) → (Id → Val) × (Var → Val)
  | .store v x, (e, m) => (e, fun w => if w = v then e x else m w)
  | .load r v, (e, m) => (fun y => if y = r then m v else e y, m)
  | .other r ops, (e, m) => (fun y => if y = r then F r (ops.map e) else e y, m)

/-- The ids and the variables after a trace, before the rewriting. -/
def before (P : Prog) (G : Id → Val) (M : Var → Val) : List Pt → (Id → Val) × (Var → Val)
  | [] => (G, M)
  | (_, 0) :: t => before P G M t
  | (b, k + 1) :: t =>
    match (P.insts b)[k]? with
    | none => before P G M t
    | some i => exec F i (before P G M t)

/-- The id used in place of `x` after the rewriting. -/
def Out.use (o : Out) (x : Id) : Id := (o.repl.lookup x).getD x

/-- One instruction after the rewriting: loads are gone, nobody reads the variables. -/
def exec' (o : Out) : Inst → (Id → Val) → (Id → Val)
  | .store _ _, e => e
  | .load _ _, e => e
  | .other r ops, e => fun y => if y = r then F r (ops.map fun x => e (o.use x)) else e y

/-- Entering `b` from `p`: all phis of `b` read their operands at once. -/
def enter (o : Out) (b p : Block) (e : Id → Val) : Id → Val := fun y =>
  match o.phis.find? (fun f => f.1 == y && f.2.1 == b) with
  | none => e y
  | some f => match f.2.2.lookup p with
    | none => e y
    | some x => e x

/-- The ids after a trace, after the rewriting. -/
def after (P : Prog) (o : Out) (G : Id → Val) : List Pt → (Id → Val)
  | [] => G
  | [(_, 0)] => G
  | (b, 0) :: (p, k) :: t => enter o b p (after P o G ((p, k) :: t))
  | (b, k + 1) :: t =>
    match (P.insts b)[k]? with
    | none => after P o G t
    | some i => exec' F o i (after P o G t)

end

/-- A valid function whose ids are all below `fresh`.  `doms` is the rule of SSA form:
whatever path leads to an instruction, its operands have been computed on it, unless they
are not computed in the function at all. -/
structure Valid (P : Prog) (fresh : Id) : Prop where
  entry_mem : P.entry ∈ P.order
  entry_preds : P.preds P.entry = []
  no_preds : ∀ b ∈ P.order, P.preds b = [] → b = P.entry
  closed : ∀ b ∈ P.order, ∀ c, b ∈ P.preds c → c ∈ P.order
  nodup : P.order.Nodup
  single : ∀ pre b post p, P.order = pre ++ b :: post → P.preds b = [p] → p ∈ pre
  unique : ∀ x q q', q.1 ∈ P.order → q'.1 ∈ P.order →
    DefinedAt P x q → DefinedAt P x q' → q = q'
  doms : ∀ t b k i x, Trace P ((b, k) :: t) → (P.insts b)[k]? = some i → x ∈ i.operands →
    (∃ q ∈ (b, k) :: t, DefinedAt P x q) ∨ ∀ q : Pt, q.1 ∈ P.order → ¬ DefinedAt P x q
  ids : ∀ b ∈ P.order, ∀ i ∈ P.insts b, ∀ x, (x ∈ i.operands ∨ i.result = some x) →
    x ≠ 0 ∧ x < fresh
  undef_id : ∀ v, P.undef v ≠ 0 ∧ P.undef v < fresh
  undef_def : ∀ v q, q.1 ∈ P.order → ¬ DefinedAt P (P.undef v) q

/-- The output names no new id but those of the phis it makes (what the validator's
"ID has not been defined" check asks of it). -/
def Out.Closed (o : Out) (fresh : Id) : Prop :=
  ∀ e ∈ o.repl, e.2 < fresh ∨ ∃ f ∈ o.phis, f.1 = e.2

end Verif.Ssa
