import Verif.DomTree.Model
/-!
# Control dependence
(source/opt/control_dependence.{h,cpp}, source/opt/tree_iterator.h)

Functions, blocks and the post-dominator tree are those of `Verif.DomTree`. The label 0 of the
pseudo entry block (`kPseudoEntryBlock`) is `none`.
-/
namespace Verif.ControlDep
open Verif.Cfa Verif.DomTree

variable {B : Type} [DecidableEq B] [Blocks B]

/-- `ControlDependence`, source/opt/control_dependence.h:33-89: the block with the branch, the
block that depends on it, and the target of the branch. -/
structure Dep (B : Type) where
  source : Option B
  target : B
  through : B
deriving DecidableEq

/-- Where the post-order iterator is: about to walk down from a node, at a node, or about to
take the next node from the stack. -/
inductive At (B : Type) where
  | enter (c : B)
  | visit (c : B)
  | next

/-- `PostOrderTreeDFIterator` from `begin(root)` to `end(root)`, source/opt/tree_iterator.h:133-236
and source/opt/dominator_tree.h:120-131: the nodes passed, without the root. The stack has the
parents with the children still to be visited. `none`: out of steps, or the iterator has become
null. -/
def postIter (kids : B → List B) (root : B) : Nat → At B → List (B × List B) → Option (List B)
  | 0, _, _ => none
  | n + 1, .enter c, S =>
    match kids c with
    | [] => postIter kids root n (.visit c) S
    | k :: ks => postIter kids root n (.enter k) ((c, ks) :: S)
  | n + 1, .visit c, S =>
    if c = root then some [] else (postIter kids root n .next S).map (c :: ·)
  | _ + 1, .next, [] => none
  | n + 1, .next, (p, []) :: S => postIter kids root n (.visit p) S
  | n + 1, .next, (p, k :: ks) :: S => postIter kids root n (.enter k) ((p, ks) :: S)

/-- `CFG::preds`, source/opt/cfg.h:37-40 with `AddEdges`, source/opt/cfg.cpp:49-57: a block is
listed once for each edge. -/
def preds (f : Func B) (v : B) : List B :=
  f.blocks.flatMap fun u => ((f.succs u).filter (· = v)).map fun _ => u

/-- `reverse_nodes_` and `forward_nodes_`: maps from labels to lists of dependences. -/
abbrev DepMap (B : Type) := Option B → Option (List (Dep B))

def DepMap.get (R : DepMap B) (b : Option B) : List (Dep B) := (R b).getD []

def DepMap.set (R : DepMap B) (b : Option B) (l : List (Dep B)) : DepMap B :=
  fun x => if x = b then some l else R x

/-- First loop of `ComputePostDominanceFrontierForNode`, source/opt/control_dependence.cpp:112-116. -/
def localDeps (f : Func B) (t : Tree B) (label : B) : List (Dep B) :=
  ((preds f label).filter fun p => !t.strictlyDominates label p).map fun p =>
    ⟨some p, label, label⟩

/-- source/opt/control_dependence.cpp:117-122. -/
def entryDeps (entry label : B) : List (Dep B) :=
  if label = entry then [⟨none, label, label⟩] else []

/-- The test in the last loop, source/opt/control_dependence.cpp:127-128. -/
def keepUp (t : Tree B) (label : B) (d : Dep B) : Bool :=
  match d.source with
  | none => true
  | some s => !t.strictlyDominates label s

/-- Last loop, source/opt/control_dependence.cpp:123-133. -/
def upDeps (t : Tree B) (R : DepMap B) (label : B) : List (Dep B) :=
  (t.children label).flatMap fun c =>
    ((R.get (some c)).filter (keepUp t label)).map fun d => ⟨d.source, label, d.through⟩

/-- `ComputePostDominanceFrontierForNode`, source/opt/control_dependence.cpp:107-134.
Simplification: reading the list of a child does not add an empty list; children are visited
before and have a list. -/
def frontier (f : Func B) (t : Tree B) (entry : B) (R : DepMap B) (label : B) : DepMap B :=
  R.set (some label) (R.get (some label) ++ localDeps f t label ++ entryDeps entry label ++
    upDeps t R label)

/-- The loop of `ComputePostDominanceFrontiers`, source/opt/control_dependence.cpp:100-104. -/
def frontiers (f : Func B) (t : Tree B) (entry : B) : List B → DepMap B → DepMap B
  | [], R => R
  | b :: bs, R => frontiers f t entry bs (frontier f t entry R b)

/-- `forward_nodes_[k]` -/
def touch (F : DepMap B) (k : Option B) : DepMap B := F.set k (F.get k)

/-- Inner loop of `ComputeForwardGraphFromReverse`, source/opt/control_dependence.cpp:146-148. -/
def forwardDeps : List (Dep B) → DepMap B → DepMap B
  | [], F => F
  | d :: ds, F => forwardDeps ds (F.set d.source (F.get d.source ++ [d]))

/-- `ComputeForwardGraphFromReverse`, source/opt/control_dependence.cpp:142-150, over the labels
in some order. -/
def forward (R : DepMap B) : List (Option B) → DepMap B → DepMap B
  | [], F => F
  | k :: ks, F => forward R ks (forwardDeps (R.get k) (touch F k))

/-- `ControlDependenceAnalysis`. -/
structure Cdg (B : Type) where
  rev : DepMap B
  fwd : DepMap B

inductive Out (A : Type) where
  | ok (a : A)
  /-- out of steps -/
  | stuck
  /-- undefined behaviour: the parent of the pseudo exit block is a null pointer -/
  | crash

/-- `ComputeControlDependenceGraph`, source/opt/control_dependence.cpp:76-105, 136-140. `t` is the
post-dominator tree of the function. The first node of the traversal gives the function. -/
def compute (n : Nat) (f : Func B) (t : Tree B) : Out (Cdg B) :=
  match t.roots, f.blocks with
  | r :: _, entry :: _ =>
    match postIter t.children r n (.enter r) [] with
    | none => .stuck
    | some [] => .crash
    | some (b :: bs) =>
      let R := frontiers f t entry (b :: bs) (DepMap.set (fun _ => none) none [])
      .ok ⟨R, forward R (none :: (b :: bs).map some) (fun _ => none)⟩
  | _, _ => .crash

/-- `HasBlock`, source/opt/control_dependence.h:159. -/
def Cdg.hasBlock (g : Cdg B) (b : Option B) : Bool := (g.fwd b).isSome

/-- `IsDependent`, source/opt/control_dependence.h:162-172. -/
def Cdg.isDependent (g : Cdg B) (a b : Option B) : Bool :=
  if !g.hasBlock a then false else (g.rev.get a).any fun d => d.source = b

end Verif.ControlDep
