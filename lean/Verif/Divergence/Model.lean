import Verif.DataFlow.Model
import Verif.ControlDep.Model
/-!
# Divergence analysis and the lint for derivatives
(source/lint/divergence_analysis.{h,cpp}, source/lint/lint_divergent_derivatives.cpp)

An instruction with a result is named by its result id, other instructions by numbers of their
own. 0 is no id. Levels (`DivergenceLevel`, source/lint/divergence_analysis.h:62-70) are numbers:
0 uniform, 1 partially uniform, 2 divergent. One function is analysed; the analysis object is new.
-/
namespace Verif.Divergence
open Verif.DataFlow Verif.ControlDep

inductive Storage where
  | function | generic | atomicCounter | storageBuffer | physicalStorageBuffer | output
  | workgroup | image | private_ | input | uniformConstant | uniform | pushConstant
  | crossWorkgroup | other
deriving DecidableEq

/-- What is asked about a variable, source/lint/divergence_analysis.cpp:159-209. -/
structure Var where
  storage : Storage
  flat : Bool
  storageImage : Bool
  readOnly : Bool

/-- `ComputeVariableDivergence`, source/lint/divergence_analysis.cpp:159-209. -/
def varLevel (v : Var) : Nat :=
  match v.storage with
  | .function | .generic | .atomicCounter | .storageBuffer | .physicalStorageBuffer | .output
  | .workgroup | .image | .private_ => 2
  | .input => if v.flat then 1 else 2
  | .uniformConstant => if !v.storageImage || v.readOnly then 0 else 2
  | .uniform | .pushConstant | .crossWorkgroup | .other => 0

/-- What the analysis distinguishes. `term b`: the terminator of block `b`; `void`: another
instruction without result; `load`: with the variable its base address is, if it is one;
`op`: anything else, with its id operands (for an OpPhi values and labels). -/
inductive Kind where
  | label
  | term (block : Nat)
  | void
  | param
  | load (base : Option Var)
  | op (ins : List Nat)

/-- The function: `users` of the def-use manager, the phis of a block, the control dependence
graph (C76), the condition of the terminator of a block (`GetConditionID`,
source/opt/control_dependence.cpp:42-54), `follow_unconditional_branches_`
(source/lint/divergence_analysis.cpp:216-228), and the instructions of the blocks in the order of
`InitializeWorklist` with the labels at the end (source/opt/dataflow.cpp:54-71). -/
structure Fn where
  kind : Nat → Kind
  users : Nat → List Nat
  phis : Nat → List Nat
  cdg : Cdg Nat
  cond : Nat → Nat
  follow : Nat → Nat
  init : List Nat

/-- `divergence_`, `divergence_source_`, `divergence_dependence_source_`,
source/lint/divergence_analysis.h:145-147; 0 where there is no entry. -/
structure St where
  div : Nat → Nat
  src : Nat → Nat
  dep : Nat → Nat

def St.new : St := ⟨fun _ => 0, fun _ => 0, fun _ => 0⟩

def set (g : Nat → Nat) (i v : Nat) : Nat → Nat := fun j => if j = i then v else g j

/-- The level of a condition, seen from a dependent block,
source/lint/divergence_analysis.cpp:79-89. -/
def promote (f : Fn) (d : Dep Nat) (l : Nat) : Nat :=
  if f.follow d.through ≠ f.follow d.target then (if l = 1 then 2 else l) else l

/-- The body of the loop of `VisitBlock`, source/lint/divergence_analysis.cpp:72-96. -/
def blockStep (f : Fn) (i : Nat) (st : St) (d : Dep Nat) : St :=
  match d.source with
  | none => st
  | some s =>
    if st.div s > st.div i then { st with div := set st.div i (st.div s), src := set st.src i s }
    else
      let l := promote f d (st.div (f.cond s))
      if l > st.div i then
        { div := set st.div i l, src := set st.src i (f.cond s), dep := set st.dep i s }
      else st

/-- `VisitBlock`, source/lint/divergence_analysis.cpp:63-99. -/
def visitBlock (f : Fn) (i : Nat) (st : St) : St × Bool :=
  if !f.cdg.hasBlock (some i) then (st, false)
  else if st.div i = 2 then (st, false)
  else
    let st' := (f.cdg.rev.get (some i)).foldl (blockStep f i) st
    (st', decide (st'.div i > st.div i))

/-- The loop over the operands, source/lint/divergence_analysis.cpp:146-154: the level and the
operand it is from. -/
def opLoop (div : Nat → Nat) (ins : List Nat) : Nat × Option Nat :=
  ins.foldl (fun acc v => if div v > acc.1 then (div v, some v) else acc) (0, none)

/-- `ComputeInstructionDivergence`, source/lint/divergence_analysis.cpp:121-157. -/
def computeInst (f : Fn) (i : Nat) (st : St) : St :=
  match f.kind i with
  | .param => { st with div := set st.div i 2, src := set st.src i 0 }
  | .load none => { st with div := set st.div i 2, src := set st.src i 0 }
  | .load (some v) =>
    { st with div := set st.div i (varLevel v)
              src := if varLevel v > 0 then set st.src i 0 else st.src }
  | .op ins =>
    let r := opLoop st.div ins
    { st with div := set st.div i r.1
              src := match r.2 with | some v => set st.src i v | none => st.src }
  | _ => st

/-- `Visit` and `VisitInstruction`, source/lint/divergence_analysis.cpp:54-61, 101-119. -/
def visit (f : Fn) (i : Nat) (st : St) : St × Bool :=
  match f.kind i with
  | .label => visitBlock f i st
  | .term _ => (st, true)
  | .void => (st, false)
  | _ =>
    if st.div i = 2 then (st, false)
    else (computeInst f i st, decide ((computeInst f i st).div i > st.div i))

/-- The labels of the blocks that depend on a block, source/lint/divergence_analysis.cpp:43-51. -/
def targets (f : Fn) (b : Nat) : List Nat :=
  if !f.cdg.hasBlock (some b) then [] else (f.cdg.fwd.get (some b)).map fun d => d.target

/-- `EnqueueSuccessors`, source/lint/divergence_analysis.cpp:26-52. -/
def succs (f : Fn) (i : Nat) : List Nat :=
  match f.kind i with
  | .term b => targets f b
  | .label => f.phis i ++ targets f i
  | _ => f.users i

/-- `DivergenceAnalysis`, with `InitializeWorklist` in the first round only
(source/lint/divergence_analysis.h:117-124). -/
def analysis (f : Fn) : Analysis St Nat where
  init := fun first => if first then f.init else []
  succs := fun i _ => succs f i
  visit := fun i st => visit f i st

/-- `Run` on a new object. -/
def analyse (f : Fn) : Option St := run (analysis f) St.new

/-- The test of `CheckDivergentDerivatives` for a block with a derivative,
source/lint/lint_divergent_derivatives.cpp:153-155. -/
def warned (st : St) (b : Nat) : Bool := decide (st.div b > 1)

/-- `PrintDivergenceFlow`, source/lint/lint_divergent_derivatives.cpp:94-144: the ids explained.
Simplification: both inner loops go along the sources as the outer one does, so there is one
loop. `none`: still not done after `n` steps. -/
def printFlow (src : Nat → Nat) : Nat → Nat → Option (List Nat)
  | 0, _ => none
  | n + 1, i => if i = 0 then some [] else (printFlow src n (src i)).map (i :: ·)

end Verif.Divergence
