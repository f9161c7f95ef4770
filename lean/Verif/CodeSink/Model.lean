import Verif.IfConv.Model

/-!
# Model: sinking of loads and access chains (C71)

Models `CodeSinkingPass` of source/opt/code_sink.cpp. Functions are those of `Verif.IfConv`: blocks with
phis, opaque instructions, a merge instruction and a terminator.

Simplifications:
* what the pass asks about an instruction (its opcode, the variable a load goes back to, the users of
  that variable) is a parameter;
* searches have a bound on their steps and return `none` when it is used up;
* the pass tries the instructions of each reachable block, from the last one on, until none can be
  moved (code_sink.cpp:25-48); here moves may come in any order.
-/

namespace Verif.CodeSink
open Verif.IfConv

/-- Ids an instruction reads. -/
def reads : Inst → List Id
  | .op _ ops => ops
  | .select _ c t f => [c, t, f]

/-- Ids a terminator reads. -/
def termReads : Term → List Id
  | .br _ => []
  | .cond c _ _ => [c]
  | .multi _ ops _ => ops

/-- `bbs_with_uses` (code_sink.cpp:78-89): blocks that use `d`; for a phi the block the value comes
from. -/
def useBlocks (fn : Fn) (d : Id) : List Lab :=
  (fn.labels.filter fun b =>
    (fn.block b).body.any (fun i => (reads i).contains d) || (termReads (fn.block b).term).contains d) ++
  fn.labels.flatMap fun b => (fn.block b).phis.flatMap fun φ =>
    (φ.args.filter (·.1 = d)).map (·.2)

/-- The loop over the successors in `IntersectsPath` (code_sink.cpp:314-318). The back of the vector is
the head of the list. -/
def push : List Lab → List Lab → List Lab → List Lab × List Lab
  | [], work, done => (work, done)
  | s :: ss, work, done =>
    if s ∈ done then push ss work done else push ss (s :: work) (s :: done)

/-- The loop of `IntersectsPath` (code_sink.cpp:302-319). -/
def intersectsLoop (fn : Fn) (stop : Lab) (set : List Lab) : Nat → List Lab → List Lab → Option Bool
  | _, [], _ => some false
  | 0, _ :: _, _ => none
  | n + 1, b :: work, done =>
    if b = stop then intersectsLoop fn stop set n work done
    else if b ∈ set then some true
    else
      let r := push (fn.succs b) work done
      intersectsLoop fn stop set n r.1 r.2

/-- `IntersectsPath` (code_sink.cpp:295-321). -/
def intersects (fn : Fn) (start stop : Lab) (set : List Lab) : Option Bool :=
  intersectsLoop fn stop set (fn.labels.length + 1) [start] [start]

/-- The successors from which a use is reached before the merge block (code_sink.cpp:122-133). -/
def hits (fn : Fn) (m : Lab) (uses : List Lab) : List Lab → Option (List Lab)
  | [] => some []
  | s :: ss =>
    match intersects fn s m uses, hits fn m uses ss with
    | some true, some hs => some (s :: hs)
    | some false, some hs => some hs
    | _, _ => none

/-- What one round of the search does. -/
inductive Next where
  | stay
  | go (b : Lab)
  deriving DecidableEq, Repr

/-- One round of the loop of `FindNewBasicBlockFor` (code_sink.cpp:91-166). -/
def next (fn : Fn) (uses : List Lab) (orig bb : Lab) : Option Next :=
  if bb ∈ uses then some .stay
  else
    match (fn.block bb).term with
    | .br s => if (fn.preds s).length = 1 then some (.go s) else some .stay
    | _ =>
      match (fn.block bb).merge with
      | some (.selection m _) =>
        match hits fn m uses (fn.succs bb) with
        | none => none
        | some [] => some (.go m)
        | some [s] =>
          if (fn.preds s).length ≠ 1 then some .stay
          else
            match intersects fn m orig uses with
            | none => none
            | some true => some .stay
            | some false => some (.go s)
        | some _ => some .stay
      | _ => some .stay

/-- The loop of `FindNewBasicBlockFor` (code_sink.cpp:91-166). -/
def search (fn : Fn) (uses : List Lab) (orig : Lab) : Nat → Lab → Option Lab
  | 0, _ => none
  | n + 1, bb =>
    match next fn uses orig bb with
    | none => none
    | some .stay => some bb
    | some (.go b) => search fn uses orig n b

/-- `FindNewBasicBlockFor` (code_sink.cpp:73-168), with a bound on the rounds. -/
def newBlock (fn : Fn) (bound : Nat) (d : Id) (orig : Lab) : Option Lab :=
  match search fn (useBlocks fn d) orig bound orig with
  | some b => if b = orig then none else some b
  | none => none

/-! ### Which instructions are moved -/

/-- Users of a pointer, as `HasPossibleStore` tells them apart. -/
inductive User where
  | store
  | chain (users : List User)
  | other

mutual
/-- `HasPossibleStore` (code_sink.cpp:277-293). `WhileEachUser` goes on while the function returns true,
and returns whether it got to the end. -/
def possibleStore : List User → Bool
  | [] => true
  | u :: us => if userStore u then possibleStore us else false
/-- The function it calls. -/
def userStore : User → Bool
  | .store => true
  | .chain us => possibleStore us
  | .other => false
end

/-- Where the pointer of a load goes back to (`GetBaseAddress`): a variable, with whether
`IsReadOnlyPointer`, whether it is in the storage class Uniform, and its users; or something else. -/
inductive Base where
  | variable (readOnly uniform : Bool) (users : List User)
  | other

/-- Opcodes told apart (code_sink.cpp:51-54). -/
inductive Kind where
  | load (base : Base)
  | accessChain
  | other

/-- `ReferencesMutableMemory` (code_sink.cpp:170-194) for a load. `sync`: `HasUniformMemorySync`. -/
def mutableMemory (sync : Bool) : Base → Bool
  | .other => true
  | .variable readOnly uniform users =>
    if readOnly then false
    else if sync then true
    else if !uniform then true
    else possibleStore users

/-- Whether an instruction is tried at all (code_sink.cpp:51-58). -/
def movable (sync : Bool) : Kind → Bool
  | .load base => !mutableMemory sync base
  | .accessChain => true
  | .other => false

/-- `inst->InsertBefore(pos)` (code_sink.cpp:60-68): out of block `o`, into block `t` after the phis. -/
def move (fn : Fn) (o t : Lab) (i : Inst) : Fn :=
  { fn with block := fun b =>
      if b = o then { fn.block b with body := (fn.block b).body.erase i }
      else if b = t then { fn.block b with body := i :: (fn.block b).body }
      else fn.block b }

/-- `SinkInstruction` (code_sink.cpp:50-71) on the instruction `op d ops` of block `o`, with a bound on the
rounds of the search. -/
def sink (fn : Fn) (sync : Bool) (kind : Id → Kind) (bound : Nat) (o : Lab) (d : Id) (ops : List Id) :
    Option Fn :=
  if .op d ops ∈ (fn.block o).body ∧ movable sync (kind d) = true then
    match newBlock fn bound d o with
    | some t => some (move fn o t (.op d ops))
    | none => none
  else none

/-- `SinkInstructionsInBB` and `Process` (code_sink.cpp:25-48): instructions of blocks found from the first
block are sunk, one after the other. `live`: the blocks that `ForEachBlockInPostOrder` finds. -/
inductive Sinks (sync : Bool) (kind : Id → Kind) (live : Lab → Prop) : Fn → Fn → Prop where
  | none {fn} : Sinks sync kind live fn fn
  | one {fn fn1 fn2 bound o d ops} : live o → sink fn sync kind bound o d ops = some fn1 →
      Sinks sync kind live fn1 fn2 → Sinks sync kind live fn fn2

end Verif.CodeSink
