import Verif.Cfa.Model
/-!
# Dominator and post-dominator trees
(source/opt/dominator_tree.{h,cpp}, source/opt/dominator_analysis.{h,cpp})

Blocks are the elements of a finite type `B` (see `Verif.Cfa.Model`), one of which is
the pseudo entry or exit block of the module's `CFG`. Tree nodes are identified with
the block they hold, because `DominatorTree::nodes_` is keyed by block id. The depth
first traversal and the dominator computation are those of `Verif.Cfa`.
-/
namespace Verif.DomTree
open Verif.Cfa

/-- A function of the module: its blocks in order, whether the block's last
instruction is a branch (`BasicBlock::hasSuccessor`, source/opt/basic_block.h:131) and
the blocks named by its branch (`ForEachSuccessorLabel`, source/opt/basic_block.cpp:113-139,
composed with `IRContext::get_instr_block`). Simplification: every label resolves to
a block; on an invalid module `get_instr_block` may return a null pointer. -/
structure Func (B : Type) where
  blocks : List B
  branches : B → Bool
  succs : B → List B

variable {B : Type} [DecidableEq B] [Blocks B]

/-- `map[k].push_back(v)` -/
def push (m : B → List B) (k v : B) : B → List B := fun x => if x = k then m x ++ [v] else m x

/-- The two maps of `BasicBlockSuccessorHelper`, source/opt/dominator_tree.cpp:136-138. -/
structure Maps (B : Type) where
  succ : B → List B
  pred : B → List B

/-- The lambda of the forward case, source/opt/dominator_tree.cpp:195-199. -/
def fwdEdges (bb : B) : List B → Maps B → Maps B
  | [], m => m
  | s :: ss, m => fwdEdges bb ss { succ := push m.succ bb s, pred := push m.pred s bb }

/-- Forward case, loop over the blocks, source/opt/dominator_tree.cpp:191-200. -/
def fwdLoop (succs : B → List B) : List B → Maps B → Maps B
  | [], m => m
  | bb :: bbs, m => fwdLoop succs bbs (fwdEdges bb (succs bb) m)

/-- The lambda of the inverted case, source/opt/dominator_tree.cpp:173-180. -/
def invEdges (bb : B) : List B → Maps B → Maps B
  | [], m => m
  | s :: ss, m => invEdges bb ss { succ := push m.succ s bb, pred := push m.pred bb s }

/-- Inverted case, source/opt/dominator_tree.cpp:168-186. -/
def invLoop (f : Func B) (ph : B) : List B → Maps B → Maps B
  | [], m => m
  | bb :: bbs, m =>
    if f.branches bb then invLoop f ph bbs (invEdges bb (f.succs bb) m)
    else invLoop f ph bbs { succ := push m.succ ph bb, pred := push m.pred bb ph }

/-- `BasicBlockSuccessorHelper::CreateSuccessorMap`, source/opt/dominator_tree.cpp:155-203.
`none`: the entry of a function without blocks is dereferenced (forward case). -/
def createSuccessorMap (f : Func B) (ph : B) (invert : Bool) : Option (Maps B) :=
  let m0 : Maps B := ⟨fun _ => [], fun _ => []⟩
  if invert then some (invLoop f ph f.blocks m0)
  else match f.blocks.head? with
    | none => none
    | some e => some (fwdLoop f.succs f.blocks { succ := push m0.succ ph e, pred := push m0.pred e ph })

/-- `DominatorTreeNode`, source/opt/dominator_tree.h:32-89. -/
structure Node (B : Type) where
  parent : Option B := none
  children : List B := []
  pre : Int := -1
  post : Int := -1

/-- `DominatorTree`, source/opt/dominator_tree.h:93-303. -/
structure Tree (B : Type) where
  nodes : B → Option (Node B) := fun _ => none
  roots : List B := []

/-- `DominatorTree::GetOrInsertNode`, source/opt/dominator_tree.cpp:262-275. -/
def Tree.insert (t : Tree B) (b : B) : Tree B :=
  match t.nodes b with
  | some _ => t
  | none => { t with nodes := fun x => if x = b then some {} else t.nodes x }

/-- A write through a node pointer. -/
def Tree.modify (t : Tree B) (b : B) (g : Node B → Node B) : Tree B :=
  { t with nodes := fun x => if x = b then (t.nodes x).map g else t.nodes x }

/-- The loop of `DominatorTree::InitializeTree`, source/opt/dominator_tree.cpp:330-344. -/
def addEdges : List (B × B) → Tree B → Tree B
  | [], t => t
  | (a, d) :: es, t =>
    let t := t.insert a
    if a = d then
      addEdges es (if a ∈ t.roots then t else { t with roots := t.roots ++ [a] })
    else
      let t := t.insert d
      let t := t.modify a fun n => { n with parent := some d }
      addEdges es (t.modify d fun n => { n with children := n.children ++ [a] })

/-- The callbacks of `DominatorTree::ResetDFNumbering`, source/opt/dominator_tree.cpp:349-357,
applied to the callback calls of one traversal, in order. -/
def number : List (Event B) → Int → Tree B → Tree B × Int
  | [], i, t => (t, i)
  | .pre b :: es, i, t => number es (i + 1) (t.modify b fun n => { n with pre := i + 1 })
  | .post b :: es, i, t => number es (i + 1) (t.modify b fun n => { n with post := i + 1 })
  | .back _ _ :: es, i, t => number es i t

def Tree.children (t : Tree B) (b : B) : List B := ((t.nodes b).map (·.children)).getD []

/-- `DominatorTree::ResetDFNumbering`, source/opt/dominator_tree.cpp:348-362. The traversal
reads only `children_`, which the callbacks do not change. -/
def resetDFNumbering (t : Tree B) : Tree B :=
  let rec go : List B → Int → Tree B → Tree B
    | [], _, u => u
    | r :: rs, i, u =>
      let (u, i) := number (depthFirst t.children (fun _ => false) r) i u
      go rs i u
  go t.roots 0 t

/-- `DominatorTree::InitializeTree` with `GetDominatorEdges`,
source/opt/dominator_tree.cpp:277-346. `fuel` bounds the loops of `CalculateDominators`. -/
def initializeTree (fuel : Nat) (f : Func B) (ph : B) (post : Bool) : Option (Tree B) :=
  if f.blocks.isEmpty then some {}
  else match createSuccessorMap f ph post with
    | none => none
    | some m =>
      match calculateDominators fuel (postOf (depthFirst m.succ (fun _ => false) ph)) m.pred with
      | none => none
      | some edges => some (resetDFNumbering (addEdges edges {}))

/-- `DominatorTree::Dominates` (on ids, then on nodes), source/opt/dominator_tree.cpp:223-241. -/
def Tree.dominates (t : Tree B) (a b : B) : Bool :=
  match t.nodes a, t.nodes b with
  | some x, some y => if a = b then true else decide (x.pre < y.pre) && decide (x.post > y.post)
  | _, _ => false

/-- `DominatorTree::StrictlyDominates`, source/opt/dominator_tree.cpp:207-210. -/
def Tree.strictlyDominates (t : Tree B) (a b : B) : Bool :=
  if a = b then false else t.dominates a b

/-- `DominatorTree::ImmediateDominator`, source/opt/dominator_tree.cpp:247-260. -/
def Tree.immediateDominator (t : Tree B) (a : B) : Option B :=
  match t.nodes a with
  | none => none
  | some n => n.parent

/-- `DominatorTree::ReachableFromRoots`, source/opt/dominator_tree.h:198-200. -/
def Tree.reachable (t : Tree B) (a : B) : Bool := (t.nodes a).isSome

/-- First loop of `CommonDominator`, source/opt/dominator_analysis.cpp:28-32. -/
def collect (t : Tree B) : Nat → Option B → List B → Option (List B)
  | 0, _, _ => none
  | _ + 1, none, seen => some seen
  | k + 1, some b, seen =>
    if b ∈ seen then some seen else collect t k (t.immediateDominator b) (b :: seen)

/-- Second loop of `CommonDominator`, source/opt/dominator_analysis.cpp:34-39. The outer
`Option` is the step budget, the inner one the pointer returned. -/
def climbTo (t : Tree B) (seen : List B) : Nat → Option B → Option (Option B)
  | 0, _ => none
  | _ + 1, none => some none
  | k + 1, some b => if b ∈ seen then some (some b) else climbTo t seen k (t.immediateDominator b)

/-- `DominatorAnalysisBase::CommonDominator` for non-null arguments,
source/opt/dominator_analysis.cpp:24-40. -/
def Tree.commonDominator (t : Tree B) (fuel : Nat) (b1 b2 : B) : Option (Option B) :=
  match collect t fuel (some b1) [] with
  | none => none
  | some seen => climbTo t seen fuel (some b2)

/-- An instruction of a function: the label of its block, or the `i`-th instruction of
the block's list. -/
inductive Pos (B : Type) where
  | label (b : B)
  | inst (b : B) (i : Nat)
  deriving DecidableEq

/-- `IRContext::get_instr_block` on such an instruction. -/
def Pos.block : Pos B → B
  | .label b => b
  | .inst b _ => b

/-- The walk along `NextNode`, source/opt/dominator_analysis.cpp:71-75, from instruction
`i` of a block with `k` instructions after it. The label is not in the list. -/
def walk (other : Pos B) (b : B) : Nat → Nat → Bool
  | 0, _ => false
  | k + 1, i => if Pos.inst b (i + 1) = other then true else walk other b k (i + 1)

/-- `DominatorAnalysisBase::Dominates` on (non-null) instructions of blocks,
source/opt/dominator_analysis.cpp:42-78. `size b` is the number of instructions in the
list of block `b`. -/
def dominatesInst (t : Tree B) (post : Bool) (size : B → Nat) (a b : Pos B) : Bool :=
  if a = b then true
  else if a.block ≠ b.block then t.dominates a.block b.block
  else
    let (current, other) := if post then (b, a) else (a, b)
    match current with
    | .label _ => true
    | .inst c i => walk other c (size c - 1 - i) i

end Verif.DomTree
