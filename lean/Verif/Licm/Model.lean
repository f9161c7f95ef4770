import Verif.IfConv.Model
import Verif.CodeSink.Model

/-!
# Model: hoisting out of loops (C72)

Models `LICMPass` of source/opt/licm_pass.cpp, and of source/opt/loop_descriptor.cpp the blocks of a loop,
its preheader and the test of an instruction. Functions are those of `Verif.IfConv`: blocks with phis, opaque
instructions, a merge instruction and a terminator.

Simplifications:
* loops without a preheader, for which the pass splits the header (`CFG::SplitLoopHeader`), are left out;
* the pass visits the blocks of each loop in an order given by the dominator tree, inner loops first
  (licm_pass.cpp:57-80, 96-106); here hoists may come in any order;
* `OpSelect`, which `Verif.IfConv` tells apart, is not hoisted as such; it can be any opaque instruction.
-/

namespace Verif.Licm
open Verif.IfConv

/-- What the pass gets from the analysis of dominators: the blocks in the tree, and dominance. -/
structure Info where
  live : Lab → Bool
  dom : Lab → Lab → Bool

/-- Blocks of the loop with this header and merge block (loop_descriptor.cpp:580-588): in the tree, below the
header, not below the merge block. -/
def inLoop (A : Info) (h m b : Lab) : Bool := A.live b && A.dom h b && !A.dom m b

/-- The loop over the predecessors of the header in `FindLoopPreheader` (loop_descriptor.cpp:226-241). `none`:
two distinct blocks enter the loop. -/
def findPred (A : Info) (h : Lab) : List Lab → Option Lab → Option (Option Lab)
  | [], acc => some acc
  | p :: ps, acc =>
    if A.live p && !A.dom h p then
      match acc with
      | some q => if p ≠ q then none else findPred A h ps (some p)
      | none => findPred A h ps (some p)
    else findPred A h ps acc

/-- `FindLoopPreheader` (loop_descriptor.cpp:221-258). -/
def preheader (fn : Fn) (A : Info) (h : Lab) : Option Lab :=
  match findPred A h (fn.preds h) none with
  | some (some p) => if (fn.succs p).all (· == h) then some p else none
  | _ => none

/-- What the pass asks about an opcode: `IsOpcodeCodeMotionSafe` (instruction.cpp:883-980), `IsLoad`,
`IsReadOnlyLoad` (instruction.cpp:226-252). -/
structure Kind where
  safe : Bool
  load : Bool
  readOnly : Bool

/-- Ids defined in a block. -/
def blockDefs (blk : Block) : List Id :=
  blk.phis.map (·.id) ++ blk.body.map fun i => match i with
    | .op d _ => d
    | .select d _ _ _ => d

/-- `AreAllOperandsOutsideLoop` (loop_descriptor.cpp:462-471). -/
def outside (fn : Fn) (A : Info) (h m : Lab) (ops : List Id) : Bool :=
  ops.all fun x => fn.labels.all fun b => !(inLoop A h m b && (blockDefs (fn.block b)).contains x)

/-- Opcodes that may be hoisted. -/
def Kind.mayHoist (k : Kind) : Bool := k.safe && (!k.load || k.readOnly)

/-- `ShouldHoistInstruction` (loop_descriptor.cpp:457-460). -/
def shouldHoist (fn : Fn) (A : Info) (h m : Lab) (k : Kind) (ops : List Id) : Bool :=
  k.mayHoist && outside fn A h m ops

/-- `HoistInstruction` (licm_pass.cpp:120-136): to the end of the preheader, before its merge instruction
and terminator. -/
def lift (fn : Fn) (o p : Lab) (i : Inst) : Fn :=
  { fn with block := fun b =>
      if b = o then { fn.block b with body := (fn.block b).body.erase i }
      else if b = p then { fn.block b with body := (fn.block b).body ++ [i] }
      else fn.block b }

/-- One instruction of block `o` is looked at (licm_pass.cpp:82-99). -/
def hoist (fn : Fn) (A : Info) (kind : Id → Kind) (h o : Lab) (d : Id) (ops : List Id) : Option Fn :=
  match (fn.block h).merge with
  | some (.loop m _) =>
    if .op d ops ∈ (fn.block o).body ∧ inLoop A h m o = true ∧ shouldHoist fn A h m (kind d) ops = true then
      match preheader fn A h with
      | some p => some (lift fn o p (.op d ops))
      | none => none
    else none
  | _ => none

/-- `ProcessFunction` (licm_pass.cpp:39-80): hoists, one after the other. Blocks and edges stay, and so does
what the analysis says. -/
inductive Hoists (A : Info) (kind : Id → Kind) : Fn → Fn → Prop where
  | none {fn} : Hoists A kind fn fn
  | one {fn fn1 fn2 h o d ops} : hoist fn A kind h o d ops = some fn1 → Hoists A kind fn1 fn2 →
      Hoists A kind fn fn2

end Verif.Licm
