/-!
# The data-flow engine (source/opt/dataflow.{h,cpp}) and the block orders it starts from
(source/opt/cfg.cpp)

`none` stands for an endless loop or the use of a null block.
-/
namespace Verif.DataFlow

variable {S ι : Type} [DecidableEq ι]

/-- `worklist_` and `on_worklist_`, source/opt/dataflow.h:93-111. -/
structure Work (ι : Type) where
  queue : List ι
  on : ι → Bool

def Work.empty : Work ι := ⟨[], fun _ => false⟩

/-- `DataFlowAnalysis::Enqueue`, source/opt/dataflow.cpp:22-28. -/
def enqueue (w : Work ι) (i : ι) : Work ι :=
  if w.on i then w else ⟨w.queue ++ [i], fun j => if j = i then true else w.on j⟩

def enqueueAll (w : Work ι) (is : List ι) : Work ι := is.foldl enqueue w

/-- What a derived class provides (source/opt/dataflow.h:60-84): the instructions enqueued
by `InitializeWorklist` and `EnqueueSuccessors`, and `Visit`, which may change the state
`S` of the analysis and says whether the result changed. -/
structure Analysis (S ι : Type) where
  init : Bool → List ι
  succs : ι → S → List ι
  visit : ι → S → S × Bool

/-- The loop of `RunOnce`, source/opt/dataflow.cpp:34-44. -/
def drain (A : Analysis S ι) (s : S) (w : Work ι) (changed : Bool) : Option (S × Work ι × Bool) :=
  match w.queue with
  | [] => some (s, w, changed)
  | top :: rest =>
    let w' : Work ι := ⟨rest, fun j => if j = top then false else w.on j⟩
    if (A.visit top s).2 then
      drain A (A.visit top s).1 (enqueueAll w' (A.succs top (A.visit top s).1)) true
    else drain A (A.visit top s).1 w' changed
partial_fixpoint

/-- `DataFlowAnalysis::RunOnce`, source/opt/dataflow.cpp:30-45. -/
def runOnce (A : Analysis S ι) (s : S) (w : Work ι) (first : Bool) : Option (S × Work ι × Bool) :=
  drain A s (enqueueAll w (A.init first)) false

/-- `DataFlowAnalysis::Run`, source/opt/dataflow.cpp:47-52 (one call of `RunOnce` and what
follows). -/
def runFrom (A : Analysis S ι) (s : S) (w : Work ι) (first : Bool) : Option S :=
  match runOnce A s w first with
  | none => none
  | some (s', w', changed) => if changed then runFrom A s' w' false else some s'
partial_fixpoint

def run (A : Analysis S ι) (s : S) : Option S := runFrom A s Work.empty true

/-! ## block orders -/

/-- A basic block: its label instruction, its other instructions, the labels of its
successors. -/
structure Block (ι : Type) where
  label : ι
  insts : List ι
  succs : List Nat

/-- `id2block_`: the block with the given label, source/opt/cfg.h. -/
abbrev Cfg (ι : Type) := Nat → Option (Block ι)

/-- The loop of `CFG::ComputePostOrderTraversal`, source/opt/cfg.cpp:168-190. The top of the
stack is the head of the list. -/
def postOrderLoop (C : Cfg ι) (stack seen order : List Nat) : Option (List Nat) :=
  match stack with
  | [] => some order
  | b :: rest =>
    match C b with
    | none => none
    | some blk =>
      match blk.succs.find? (fun s => s ∉ b :: seen) with
      | some s => postOrderLoop C (s :: b :: rest) (b :: seen) order
      | none => postOrderLoop C rest (b :: seen) (order ++ [b])
partial_fixpoint

/-- `ComputePostOrderTraversal`, source/opt/cfg.cpp:168-190. -/
def postOrder (C : Cfg ι) (entry : Nat) : Option (List Nat) := postOrderLoop C [entry] [] []

/-- `ForEachBlockInReversePostOrder`, source/opt/cfg.cpp:118-140; the pseudo blocks are not
reached from a block of a function. -/
def reversePostOrder (C : Cfg ι) (entry : Nat) : Option (List Nat) :=
  (postOrder C entry).map List.reverse

/-- source/opt/dataflow.h:118-127. -/
inductive LabelPosition where
  | atBeginning | atEnd | none | only
  deriving DecidableEq

/-- The enqueue calls for one block, source/opt/dataflow.cpp:57-70. -/
def blockInsts (pos : LabelPosition) (blk : Block ι) : List ι :=
  if pos = .only then [blk.label]
  else (if pos = .atBeginning then [blk.label] else []) ++ blk.insts ++
    (if pos = .atEnd then [blk.label] else [])

/-- `ForwardDataFlowAnalysis::InitializeWorklist`, source/opt/dataflow.cpp:54-71. -/
def forwardInit (C : Cfg ι) (pos : LabelPosition) (entry : Nat) : Option (List ι) :=
  (reversePostOrder C entry).map fun bs =>
    bs.flatMap fun b => match C b with
      | Option.some blk => blockInsts pos blk
      | Option.none => []

/-- `EnqueueUsers` and `EnqueueBlockSuccessors`, source/opt/dataflow.cpp:73-88, given the
users of each instruction (C31) and the block an OpLabel starts. -/
def forwardSuccs (C : Cfg ι) (users : ι → List ι) (blockOf : ι → Option (Block ι)) (i : ι) :
    List ι :=
  users i ++ match blockOf i with
    | Option.none => []
    | Option.some blk => blk.succs.filterMap fun s => (C s).map (·.label)

end Verif.DataFlow
