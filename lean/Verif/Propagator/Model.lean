import Verif.Cfa.Model
/-!
# The SSA propagator  (source/opt/propagator.{h,cpp})

Instructions and blocks are elements of types `I` and `B`. The visit function is a parameter:
it has a state `V` of its own and may look at the executable edges (constant propagation does,
through `IsPhiArgExecutable`). It is assumed not to call `SetStatus` itself.

The calls of the visit function are recorded in `trace`, newest first; nothing reads the
record.

Simplifications: the model covers one `Run` of a freshly made propagator (every user makes a
new one for each function); blocks and instructions are taken off their queue before being
simulated instead of after (the queue's front is not read in between); the debug-only loop at
the end of `Run` that checks that no instruction is left "not interesting" is left out.
`bb_preds_` is never read.
-/
namespace Verif.Propagator

/-- `PropStatus`, source/opt/propagator.h:171, without `kFailed`, in order. -/
inductive Status where
  | notInteresting
  | interesting
  | varying
  deriving DecidableEq

def Status.rank : Status → Nat
  | .notInteresting => 0
  | .interesting => 1
  | .varying => 2

/-- What the visit function returns: a status (`none` is `kFailed`) and `*dest_bb`. -/
abbrev Answer (B : Type) := Option Status × Option B

/-- What the propagator reads of the function. -/
structure Prog (I B : Type) where
  /-- `BasicBlock::WhileEachInst`: the label and the instructions -/
  insts : B → List I
  /-- `BasicBlock::WhileEachPhiInst` -/
  phis : B → List I
  /-- `IRContext::get_instr_block` -/
  block : I → Option B
  /-- `ForEachUser` of the result id; empty without result -/
  users : I → List I
  isPhi : I → Bool
  /-- a phi's pairs: definition of the value, block of the label -/
  args : I → List (I × B)
  /-- the definitions of the in-operands that are ids -/
  inDefs : I → List I
  /-- `IsBlockTerminator` -/
  terminator : I → Bool
  /-- `bb_succs_` as filled by `Initialize` (source/opt/propagator.cpp:218-243): successor
  labels, and the pseudo exit for returning or aborting blocks -/
  succs : B → List B
  pseudoEntry : B
  pseudoExit : B
  entry : B

/-- One call of the visit function and its answer. -/
structure Call (I B : Type) where
  inst : I
  status : Status
  dest : Option B
  /-- the executable edges at the time -/
  seen : List (B × B)

/-- Members of `SSAPropagator`, source/opt/propagator.h:277-316. Queues have their front
first. -/
structure State (I B V : Type) where
  ssa : List I
  blocks : List B
  simulated : List B
  dns : List I
  edges : List (B × B)
  status : I → Option Status
  val : V
  trace : List (Call I B)

/-- Result of simulating something: undefined behaviour, the assertion "Invalid lattice
transition", `Failure`, or success with or without change. -/
inductive Res (σ : Type) where
  | fault
  | descended
  | failed
  | ok (s : σ) (changed : Bool)

variable {I B V : Type} [DecidableEq I] [DecidableEq B]

/-- `AddControlEdge`, source/opt/propagator.cpp:20-37. -/
def addControlEdge (p : Prog I B) (src dest : B) (s : State I B V) : State I B V :=
  if dest = p.pseudoExit then s
  else if (src, dest) ∈ s.edges then s
  else { s with edges := (src, dest) :: s.edges, blocks := s.blocks ++ [dest] }

/-- The loop over the edges out of a block, source/opt/propagator.cpp:116-118. -/
def addControlEdges (p : Prog I B) (src : B) : List B → State I B V → State I B V
  | [], s => s
  | d :: ds, s => addControlEdges p src ds (addControlEdge p src d s)

/-- The users `AddSSAEdges` puts on the queue, source/opt/propagator.cpp:39-58. An
instruction without block is never in a simulated one. -/
def ssaUsers (p : Prog I B) (s : State I B V) (i : I) : List I :=
  (p.users i).filter fun u =>
    match p.block u with
    | none => false
    | some b => decide (b ∈ s.simulated) && decide (u ∉ s.dns)

/-- `AddSSAEdges` -/
def addSSAEdges (p : Prog I B) (i : I) (s : State I B V) : State I B V :=
  { s with ssa := s.ssa ++ ssaUsers p s i }

/-- Whether an operand may still change, source/opt/propagator.cpp:143-177.
`IsPhiArgExecutable` is lines 60-68. -/
def hasOperandsToSimulate (p : Prog I B) (s : State I B V) (i : I) (b : B) : Bool :=
  if p.isPhi i then (p.args i).any fun a => decide ((a.2, b) ∉ s.edges) || decide (a.1 ∉ s.dns)
  else (p.inDefs i).any fun d => decide (d ∉ s.dns)

/-- The negated assertion of `SetStatus`, source/opt/propagator.cpp:78-79. -/
def descends : Option Status → Status → Bool
  | some o, st => decide (st.rank < o.rank)
  | none, _ => false

/-- `Simulate(Instruction*)`, source/opt/propagator.cpp:89-185, with `SetStatus` (70-87). -/
def simulate (p : Prog I B) (visit : V → List (B × B) → I → V × Answer B) (i : I) (s : State I B V) :
    Res (State I B V) :=
  if i ∈ s.dns then .ok s false
  else match visit s.val s.edges i with
    | (_, none, _) => .failed
    | (v, some st, dest) =>
      match p.block i with
      | none => .fault
      | some b =>
        let old := s.status i
        if descends old st then .descended
        else
          let statusChanged := decide (old ≠ some st)
          let s : State I B V :=
            { s with val := v, trace := ⟨i, st, dest, s.edges⟩ :: s.trace,
                     status := fun j => if j = i then some st else s.status j }
          match st with
          | .varying =>
            let s := { s with dns := i :: s.dns }
            let s := if statusChanged then addSSAEdges p i s else s
            if p.terminator i then
              match p.succs b with
              | [] => .fault                       -- `bb_succs_.at` throws
              | ds => .ok (addControlEdges p b ds s) false
            else .ok s false
          | st =>
            let s := if statusChanged ∧ st = .interesting then addSSAEdges p i s else s
            let s := match st, dest with
              | .interesting, some d => addControlEdge p b d s
              | _, _ => s
            let s := if hasOperandsToSimulate p s i b then s else { s with dns := i :: s.dns }
            .ok s (decide (st = .interesting))

/-- `WhileEachInst`/`WhileEachPhiInst` with the callback of `Simulate(BasicBlock*)`. -/
def simulateAll (p : Prog I B) (visit : V → List (B × B) → I → V × Answer B) :
    List I → State I B V → Bool → Res (State I B V)
  | [], s, changed => .ok s changed
  | i :: is, s, changed => match simulate p visit i s with
    | .ok s c => simulateAll p visit is s (changed || c)
    | .fault => .fault
    | .descended => .descended
    | .failed => .failed

/-- `Simulate(BasicBlock*)`, source/opt/propagator.cpp:187-230. -/
def simulateBlock (p : Prog I B) (visit : V → List (B × B) → I → V × Answer B) (b : B)
    (s : State I B V) : Res (State I B V) :=
  if b = p.pseudoExit then .ok s false
  else match simulateAll p visit (p.phis b) s false with
    | .fault => .fault
    | .descended => .descended
    | .failed => .failed
    | .ok s changed =>
      if b ∈ s.simulated then .ok s changed
      else match simulateAll p visit (p.insts b) s changed with
        | .fault => .fault
        | .descended => .descended
        | .failed => .failed
        | .ok s changed =>
          let s := { s with simulated := b :: s.simulated }
          match p.succs b with
          | [] => .fault                           -- `bb_succs_.at` throws
          | [d] => .ok (addControlEdge p b d s) changed
          | _ => .ok s changed

/-- `Initialize`, source/opt/propagator.cpp:232-262: the entry block is queued. -/
def initState (p : Prog I B) (v : V) : State I B V :=
  addControlEdge p p.pseudoEntry p.entry
    { ssa := [], blocks := [], simulated := [], dns := [], edges := [], status := fun _ => none,
      val := v, trace := [] }

/-- How `Run` ends; `failed` and `done` carry the value returned. -/
inductive Outcome (σ : Type) where
  | fault
  | descended
  | outOfFuel
  | failed (ret : Bool)
  | done (ret : Bool) (s : σ)

/-- The loop of `Run`, source/opt/propagator.cpp:264-291. `fuel` bounds the iterations. -/
def loop (p : Prog I B) (visit : V → List (B × B) → I → V × Answer B) :
    Nat → State I B V → Bool → Outcome (State I B V)
  | 0, _, _ => .outOfFuel
  | fuel + 1, s, changed => match s.blocks with
    | b :: rest => match simulateBlock p visit b { s with blocks := rest } with
      | .fault => .fault
      | .descended => .descended
      | .failed => .failed false
      | .ok s c => loop p visit fuel s (changed || c)
    | [] => match s.ssa with
      | [] => .done changed s
      | i :: rest => match simulate p visit i { s with ssa := rest } with
        | .fault => .fault
        | .descended => .descended
        | .failed => .failed changed
        | .ok s c => loop p visit fuel s (changed || c)

/-- `Run`, source/opt/propagator.cpp:264-304. -/
def run (p : Prog I B) (visit : V → List (B × B) → I → V × Answer B) (v : V) (fuel : Nat) :
    Outcome (State I B V) :=
  loop p visit fuel (initState p v) false

end Verif.Propagator
