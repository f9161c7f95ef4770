import Verif.Cfa.Model
/-!
# The dominance check of the validator

`CheckIdDefinitionDominateUse` (source/val/validate_id.cpp:42-117) with everything it reads:
the control-flow graphs built while parsing (source/val/function.cpp, basic_block.cpp), the
reachability pass and the immediate dominators (source/val/validate_cfg.cpp:1020-1049,
1243-1263). The blocks of all functions, with the pseudo blocks, are the elements of one
finite type `B`. `none` stands for undefined behaviour, a failed assertion, or a loop that
ran out of `fuel`.
-/
namespace Verif.DomCheck
open Verif.Cfa

/-- A function. `ordered` are its blocks in the order of their labels (`ordered_blocks_`;
empty for a declaration), `succ` the targets of the terminators (`successors_`), `merges` the
targets of the merge instructions. Every block referenced is assumed to be defined, as
source/val/validate_cfg.cpp:1021-1036 requires. -/
structure Func (B : Type) where
  ordered : List B
  succ : B → List B
  merges : B → List B
  pseudoEntry : B
  pseudoExit : B

variable {B : Type} [DecidableEq B]

/-- `structural_successors_`: the merge instruction registers its targets first
(source/val/function.cpp:68-111), then the terminator (source/val/basic_block.cpp:67-78). -/
def Func.ssucc (f : Func B) (b : B) : List B := f.merges b ++ f.succ b

/-- The lists of predecessors belonging to lists of successors: every edge pushes its source
to its target's list, in the order of the blocks (source/val/basic_block.cpp:67-78). -/
def predsOf (ordered : List B) (succ : B → List B) (v : B) : List B :=
  ordered.flatMap fun u => ((succ u).filter (· = v)).map fun _ => u

/-- `predecessors_` -/
def Func.pred (f : Func B) : B → List B := predsOf f.ordered f.succ
/-- `structural_predecessors_` -/
def Func.spred (f : Func B) : B → List B := predsOf f.ordered f.ssucc

variable [Blocks B]

/-- `Function::ComputeAugmentedCFG` (source/val/function.cpp:284-297) on the structural
edges, and the functions reading its maps, which fall back to the plain edges
(source/val/function.cpp:248-262). -/
def Func.augmented (f : Func B) : Option ((B → List B) × (B → List B)) :=
  match traversalRoots f.ordered f.ssucc f.spred,
      traversalRoots f.ordered.reverse f.spred f.ssucc with
  | some sources, some sinks =>
    some
      (fun b => if b ∈ sinks then f.pseudoExit :: f.ssucc b
        else if b = f.pseudoEntry then sources else f.succ b,
       fun b => if b = f.pseudoExit then sinks
        else if b ∈ sources then f.pseudoEntry :: f.spred b else f.pred b)
  | _, _ => none

/-- The immediate dominators `PerformCfgChecks` sets, source/val/validate_cfg.cpp:1037-1053:
pairs (block, dominator). -/
def Func.idomEdges (fuel : Nat) (f : Func B) : Option (List (B × B)) :=
  match f.ordered.head? with
  | none => some []
  | some first => match f.augmented with
    | none => none
    | some (asucc, apred) =>
      match calculateDominators fuel (postOf (depthFirst asucc (fun _ => false) first)) apred with
      | none => none
      | some edges => some (edges.filter fun e => decide (e.1 ≠ e.2))

/-- The loop over the functions, source/val/validate_cfg.cpp:1018. Each block belongs to one
function, so the order of the assignments does not matter. -/
def idomEdges (fuel : Nat) : List (Func B) → Option (List (B × B))
  | [] => some []
  | f :: fs => match f.idomEdges fuel with
    | none => none
    | some e => match idomEdges fuel fs with
      | none => none
      | some es => some (e ++ es)

/-- `std::find` over the dominator iterator, source/val/basic_block.cpp:80-84, 105-112:
whether `d` is `b` or in the chain of immediate dominators above it. -/
def dominates (idom : B → Option B) (d : B) : Nat → B → Option Bool
  | 0, _ => none
  | fuel + 1, b =>
    if d = b then some true
    else match idom b with
      | none => some false
      | some x => if x = b then some false else dominates idom d fuel x

/-- The stack loop of `ReachabilityPass`, source/val/validate_cfg.cpp:1249-1261: the blocks
marked reachable. -/
def reachLoop {B : Type} [DecidableEq B] [Blocks B] (succ : B → List B) (marked : List B) : List B → List B
  | [] => marked
  | b :: stack =>
    if h : b ∈ marked then reachLoop succ marked stack
    else reachLoop succ (b :: marked) ((succ b).reverse ++ stack)
  termination_by stack => (unseen marked, stack.length)
  decreasing_by
    · apply Prod.Lex.right; simp
    · apply Prod.Lex.left; exact unseen_lt _ _ h

/-- `ReachabilityPass`, source/val/validate_cfg.cpp:1243-1263. -/
def reachability (fs : List (Func B)) : List B :=
  fs.flatMap fun f => match f.ordered.head? with
    | none => []
    | some first => reachLoop f.succ [] [first]

/-- An instruction. `id` is 0 when there is no result; `func` the index of the function whose
body contains it, `block` its block (absent for labels and parameters); `uses` the ids among
its operands other than the result; for an OpPhi, `incoming` are the pairs of value and
parent. Parents are given as blocks: `ValidatePhi` (source/val/validate_cfg.cpp:41-140, run
earlier) has checked that they are predecessors of the phi's block. -/
structure Inst (B : Type) where
  id : Nat
  func : Option Nat
  block : Option B
  phi : Bool
  uses : List Nat
  incoming : List (Nat × B)

/-- A module. -/
structure Module (B : Type) where
  funcs : List (Func B)
  insts : List (Inst B)

/-- `FindDef` -/
def Module.findDef (m : Module B) (w : Nat) : Option (Inst B) :=
  m.insts.find? fun i => decide (i.id = w ∧ w ≠ 0)

/-- `uses()` of a definition as filled by `UpdateIdUse` (source/val/validate_id.cpp:29-40):
one entry for each operand mentioning it. -/
def Module.usesOf (m : Module B) (w : Nat) : List (Inst B) :=
  m.insts.flatMap fun i => (i.uses.filter (· = w)).map fun _ => i

/-- Loop over the uses of an id defined in a block, source/val/validate_id.cpp:57-76. The
state is `phi_instructions`; `phi_ids` holds the ids of its members. The second component is
false when a diagnostic is returned. -/
def checkBlockUses (idom : B → Option B) (reachable : List B) (fuel : Nat) (block : B) :
    List (Inst B) → List (Inst B) → Option (List (Inst B) × Bool)
  | [], phis => some (phis, true)
  | use :: rest, phis => match use.block with
    | none => checkBlockUses idom reachable fuel block rest phis
    | some ub =>
      if ub ∉ reachable then checkBlockUses idom reachable fuel block rest phis
      else if use.phi then
        if use.id ∈ phis.map (·.id) then checkBlockUses idom reachable fuel block rest phis
        else checkBlockUses idom reachable fuel block rest (phis ++ [use])
      else match dominates idom block fuel ub with
        | none => none
        | some false => some (phis, false)
        | some true => checkBlockUses idom reachable fuel block rest phis

/-- The loop over the instructions, source/val/validate_id.cpp:54-95. -/
def checkDefs (m : Module B) (idom : B → Option B) (reachable : List B) (fuel : Nat) :
    List (Inst B) → List (Inst B) → Option (List (Inst B) × Bool)
  | [], phis => some (phis, true)
  | inst :: rest, phis =>
    if inst.id = 0 then checkDefs m idom reachable fuel rest phis
    else match inst.func with
      | none => checkDefs m idom reachable fuel rest phis
      | some fn => match inst.block with
        | some block =>
          match checkBlockUses idom reachable fuel block (m.usesOf inst.id) phis with
          | none => none
          | some (phis, false) => some (phis, false)
          | some (phis, true) => checkDefs m idom reachable fuel rest phis
        | none =>
          if (m.usesOf inst.id).any (fun u => decide (u.func ≠ none ∧ u.func ≠ some fn)) then
            some (phis, false)
          else checkDefs m idom reachable fuel rest phis

/-- The loop over the incoming pairs of a phi, source/val/validate_id.cpp:101-113. -/
def checkIncoming (m : Module B) (idom : B → Option B) (reachable : List B) (fuel : Nat) :
    List (Nat × B) → Option Bool
  | [] => some true
  | (w, parent) :: rest => match m.findDef w with
    | none => none                              -- null dereference
    | some d => match d.block with
      | none => checkIncoming m idom reachable fuel rest
      | some db =>
        if parent ∉ reachable then checkIncoming m idom reachable fuel rest
        else match dominates idom db fuel parent with
          | none => none
          | some false => some false
          | some true => checkIncoming m idom reachable fuel rest

/-- The loop over the phis, source/val/validate_id.cpp:99-114. -/
def checkPhis (m : Module B) (idom : B → Option B) (reachable : List B) (fuel : Nat) :
    List (Inst B) → Option Bool
  | [] => some true
  | phi :: rest => match phi.block with
    | none => none                              -- null dereference
    | some pb =>
      if pb ∉ reachable then checkPhis m idom reachable fuel rest
      else match checkIncoming m idom reachable fuel phi.incoming with
        | none => none
        | some false => some false
        | some true => checkPhis m idom reachable fuel rest

/-- `CheckIdDefinitionDominateUse` with what it reads: whether it succeeds. -/
def check (fuel : Nat) (m : Module B) : Option Bool :=
  match idomEdges fuel m.funcs with
  | none => none
  | some edges =>
    let idom := fun b => edges.lookup b
    let reachable := reachability m.funcs
    match checkDefs m idom reachable fuel m.insts [] with
    | none => none
    | some (_, false) => some false
    | some (phis, true) => checkPhis m idom reachable fuel phis

end Verif.DomCheck
