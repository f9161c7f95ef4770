import Verif.BlockMerge.Model

/-!
# Model: elimination of dead branches (C74)

Models `DeadBranchElimPass` (source/opt/dead_branch_elim_pass.cpp). Functions are those of `Verif.IfConv`: blocks
with phis, opaque instructions, a merge instruction and a terminator.

Simplifications:
* what defines a condition or a selector, which blocks have a back edge that must stay, which switches have breaks
  from inside nested constructs and where `OpSelectionMerge` goes to are parameters;
* names, decorations and the order of blocks (dead_branch_elim_pass.cpp:438-469) are left out;
* a continue target belongs to one loop; if several headers have the same, the code takes any, here the first.
-/

namespace Verif.DeadBranch
open Verif.IfConv Verif.BlockMerge

/-- What defines a condition: `OpConstantFalse` or `OpConstantNull`, `OpConstantTrue`, `OpLogicalNot`, something
else. -/
inductive Kind where
  | no
  | yes
  | not (x : Id)
  | other
  deriving DecidableEq, Repr

structure Info where
  kind : Id → Kind
  /-- as many `OpLogicalNot` in a row are looked through; the code has no limit -/
  depth : Nat
  /-- `GetConstInteger` (dead_branch_elim_pass.cpp:60-75) -/
  int : Id → Option Nat
  /-- the literals of the cases of a block that ends in `OpSwitch` -/
  lits : Lab → Option (List Nat)
  /-- the block is in `blocks_with_backedge` and its live target is not the header of its loop -/
  back : Lab → Bool
  /-- `SwitchHasNestedBreak` -/
  nested : Lab → Bool
  /-- where selection merges are afterwards: merge block, and whether the control is DontFlatten -/
  sel : Lab → Option (Lab × Bool)
  /-- the id is defined by `OpUndef` -/
  isUndef : Id → Bool
  /-- `Type2Undef` of the type of this phi -/
  undef : Id → Id

/-- `GetConstCondition` (dead_branch_elim_pass.cpp:36-58). -/
def constCond (kind : Id → Kind) : Nat → Id → Option Bool
  | 0, _ => none
  | n + 1, d => match kind d with
    | .no => some false
    | .yes => some true
    | .not x => (constCond kind n x).map (!·)
    | .other => none

/-- The target of a switch for a selector (dead_branch_elim_pass.cpp:122-145): the first case with that literal,
or the default. -/
def pick (n : Nat) (dflt : Lab) : List (Nat × Lab) → Lab
  | [] => dflt
  | (k, t) :: r => if k = n then t else pick n dflt r

/-- `live_lab_id` (dead_branch_elim_pass.cpp:112-146). -/
def liveLab (fn : Fn) (A : Info) (b : Lab) : Option Lab :=
  match (fn.block b).term with
  | .br _ => none
  | .cond c t f => (constCond A.kind A.depth c).map fun k => if k then t else f
  | .multi _ ops ts =>
    match A.lits b, ops, ts with
    | some ls, [x], d :: cs => (A.int x).map fun n => pick n d (ls.zip cs)
    | _, _, _ => none

/-- The target, if the branch is simplified (dead_branch_elim_pass.cpp:148-164). -/
def target (fn : Fn) (A : Info) (b : Lab) : Option Lab := if A.back b then none else liveLab fn A b

/-- What is pushed on the stack for a block (dead_branch_elim_pass.cpp:166-175). -/
def next (fn : Fn) (A : Info) (b : Lab) : List Lab :=
  match target fn A b with
  | some t => [t]
  | none => fn.succs b

/-- The loop of `MarkLiveBlocks` (dead_branch_elim_pass.cpp:93-176): rounds left, stack, live blocks. -/
def mark (fn : Fn) (A : Info) : Nat → List Lab → List Lab → List Lab
  | 0, _, live => live
  | _ + 1, [], live => live
  | n + 1, b :: st, live =>
    if b ∈ live then mark fn A n st live else mark fn A n ((next fn A b).reverse ++ st) (b :: live)

/-- Enough rounds. -/
def rounds (fn : Fn) (A : Info) : Nat := 1 + (fn.labels.map fun b => (next fn A b).length + 1).sum

/-- `live_blocks` after `MarkLiveBlocks`. -/
def live (fn : Fn) (A : Info) : List Lab := mark fn A (rounds fn A) [fn.entry] []

/-- `SimplifyBranch`, the terminator (dead_branch_elim_pass.cpp:189-236). -/
def newTerm (fn : Fn) (A : Info) (b : Lab) : Term :=
  match target fn A b with
  | none => (fn.block b).term
  | some t => match (fn.block b).term with
    | .multi g ops _ => if A.nested b then .multi g ops [t] else .br t
    | _ => .br t

/-- `SimplifyBranch`, the merge instruction: loop merges stay. -/
def newMerge (fn : Fn) (A : Info) (b : Lab) : Option Merge :=
  match (fn.block b).merge with
  | some (.loop m c) => some (.loop m c)
  | _ => (A.sel b).map fun x => .selection x.1 x.2

/-- The function after `MarkLiveBlocks`. -/
def simplified (fn : Fn) (A : Info) : Fn :=
  { fn with block := fun b => if b ∈ live fn A
      then { fn.block b with term := newTerm fn A b, merge := newMerge fn A b } else fn.block b }

/-- `unreachable_merges` (dead_branch_elim_pass.cpp:238-256). -/
def deadMerge (fn : Fn) (L : List Lab) (x : Lab) : Bool :=
  !L.contains x && fn.labels.any fun h => L.contains h && match (fn.block h).merge with
    | some M => mergeTarget M == x
    | none => false

/-- `unreachable_continues` (dead_branch_elim_pass.cpp:238-256): the header, for a dead continue target. -/
def deadCont (fn : Fn) (L : List Lab) (x : Lab) : Option Lab :=
  if L.contains x then none else fn.labels.find? fun h => L.contains h && match (fn.block h).merge with
    | some (.loop _ c) => c == x
    | _ => false

/-- What becomes of one value of a phi of `s` (dead_branch_elim_pass.cpp:284-316). -/
def keepArg (fn : Fn) (A : Info) (L : List Lab) (s : Lab) (φ : Phi) (x : Id × Lab) : Option (Id × Lab) :=
  if deadCont fn L x.2 = some s ∧ φ.args.length > 2 then some (if A.isUndef x.1 then x.1 else A.undef φ.id, x.2)
  else if x.2 ∈ L ∧ s ∈ fn.succs x.2 then some x
  else none

/-- `backedge_added`. -/
def hasBack (fn : Fn) (L : List Lab) (s : Lab) (φ : Phi) : Bool :=
  φ.args.any fun x => deadCont fn L x.2 == some s && decide (φ.args.length > 2)

/-- The value added for the continue target (dead_branch_elim_pass.cpp:320-335). -/
def addBack (fn : Fn) (A : Info) (L : List Lab) (s : Lab) (φ : Phi) (args : List (Id × Lab)) : List (Id × Lab) :=
  match (fn.block s).merge with
  | some (.loop _ c) =>
    if !hasBack fn L s φ && (deadCont fn L c).isSome && decide (args.length > 1) then args ++ [(A.undef φ.id, c)]
    else args
  | _ => args

/-- A phi is replaced by a value, everywhere, and removed (dead_branch_elim_pass.cpp:342-347). -/
def kill (fn : Fn) (s : Lab) (d a : Id) : Fn :=
  { fn with block := fun x => subBlock d a (if x = s
      then { fn.block s with phis := (fn.block s).phis.filter (·.id ≠ d) } else fn.block x) }

/-- A phi gets these values (dead_branch_elim_pass.cpp:348-357). -/
def setArgs (fn : Fn) (s : Lab) (d : Id) (args : List (Id × Lab)) : Fn :=
  { fn with block := fun x => if x = s
      then { fn.block s with phis := (fn.block s).phis.map fun ψ => if ψ.id = d then { ψ with args := args } else ψ }
      else fn.block x }

/-- The body of the loop of `FixPhiNodesInLiveBlocks` for one phi (dead_branch_elim_pass.cpp:269-361). -/
def fixPhi (A : Info) (L : List Lab) (fn : Fn) (x : Lab × Id) : Fn :=
  match (fn.block x.1).phis.find? (·.id = x.2) with
  | none => fn
  | some φ =>
    let args := φ.args.filterMap (keepArg fn A L x.1 φ)
    if args = φ.args then fn
    else match addBack fn A L x.1 φ args with
      | [(a, _)] => kill fn x.1 x.2 a
      | args' => setArgs fn x.1 x.2 args'

/-- `FixPhiNodesInLiveBlocks` (dead_branch_elim_pass.cpp:258-366). -/
def fixPhis (A : Info) (L : List Lab) (fn : Fn) : Fn :=
  ((fn.labels.filter (· ∈ L)).flatMap fun s => (fn.block s).phis.map fun φ => (s, φ.id)).foldl (fixPhi A L) fn

/-- `EraseDeadBlocks` (dead_branch_elim_pass.cpp:368-416). -/
def erase (L : List Lab) (fn : Fn) : Fn where
  entry := fn.entry
  labels := fn.labels.filter fun x => L.contains x || (deadCont fn L x).isSome || deadMerge fn L x
  block x :=
    if x ∈ L then fn.block x
    else match deadCont fn L x with
      | some h => ⟨[], [], none, .br h⟩
      | none => ⟨[], [], none, .multi 0 [] []⟩

/-- `EliminateDeadBranches` (dead_branch_elim_pass.cpp:418-436). -/
def eliminate (fn : Fn) (A : Info) : Fn := erase (live fn A) (fixPhis A (live fn A) (simplified fn A))

end Verif.DeadBranch
