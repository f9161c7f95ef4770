import Verif.Propagator.Model
/-!
# Conditional constant propagation  (source/opt/ccp_pass.{h,cpp})

The visit function of the pass, for the model of the propagator in `Verif.Propagator`. An instruction
stands for its result id. Constants, including those made while the pass runs, are instructions without
block.

Simplifications: folding is a parameter (`fold`; `FoldInstructionToConstant` never runs out of ids);
`values_` is a function of the id. For constants and case literals of less than 32 bits the words
compared are sign or zero extended, in the same way for both; here they are just numbers.
-/
namespace Verif.Ccp
open Verif.Propagator

/-- A declared constant: `BoolConstant`, `IntConstant`, `NullConstant`, or another one. -/
inductive Const where
  | bool (b : Bool)
  | int (v : Nat)
  | null
  | other
  deriving DecidableEq

/-- What the visit function distinguishes. -/
inductive Kind (I B : Type) where
  | phi
  /-- `OpBranch` -/
  | br (target : B)
  /-- `OpBranchConditional` -/
  | cond (c : I) (t f : B)
  /-- `OpSwitch` -/
  | switch (sel : I) (dflt : B) (cases : List (Nat × B))
  /-- `OpCopyObject` -/
  | copy (src : I)
  /-- `IsFoldable` -/
  | foldable
  /-- another instruction with result -/
  | assign
  /-- an instruction without result that is not a branch -/
  | effect
  deriving DecidableEq

/-- A function and its module. -/
structure Func (I B : Type) extends Prog I B where
  kind : I → Kind I B
  /-- `FindDeclaredConstant`; `none` for anything but a constant -/
  const : I → Option Const
  /-- `FoldInstructionToConstant` with a map of ids -/
  fold : I → (I → I) → Option I
  /-- defined outside of functions, or a parameter: has an entry in `values_` -/
  global : I → Bool

/-- An entry of `values_`: a constant, or `kVaryingSSAId`. -/
inductive Entry (I : Type) where
  | const (k : I)
  | varying
  deriving DecidableEq

/-- `values_`, source/opt/ccp_pass.h:120. -/
abbrev Table (I : Type) := I → Option (Entry I)

variable {I B : Type} [DecidableEq I] [DecidableEq B]

/-- `values_[id] = entry` -/
def Table.set (v : Table I) (i : I) (x : Entry I) : Table I := fun j => if j = i then some x else v j

/-- `MarkInstructionVarying`, source/opt/ccp_pass.cpp:40-45. -/
def markVarying (v : Table I) (i : I) : Table I × Answer B := (v.set i .varying, some .varying, none)

/-- Result of the loop of `VisitPhi`. -/
inductive Meet (I : Type) where
  | undef
  | const (k : I)
  | varying

/-- The loop of `VisitPhi`, source/opt/ccp_pass.cpp:53-93; `m` is `meet_val_id`. `IsPhiArgExecutable` looks for the
edge from the block of the argument to the block of the phi. -/
def meetArgs (v : Table I) (exec : B → Bool) : List (I × B) → Option I → Meet I
  | [], none => .undef
  | [], some k => .const k
  | (d, q) :: rest, m =>
    if exec q then
      match v d with
      | none => meetArgs v exec rest m
      | some .varying => .varying
      | some (.const k) =>
        match m with
        | none => meetArgs v exec rest (some k)
        | some k' => if k = k' then meetArgs v exec rest m else .varying
    else meetArgs v exec rest m

/-- `VisitPhi`, source/opt/ccp_pass.cpp:47-99. -/
def Func.visitPhi (f : Func I B) (v : Table I) (edges : List (B × B)) (i : I) : Table I × Answer B :=
  let exec := fun q => match f.block i with
    | some b => decide ((q, b) ∈ edges)
    | none => false
  match meetArgs v exec (f.args i) none with
  | .varying => markVarying v i
  | .undef => (v, some .notInteresting, none)
  | .const k => (v.set i (.const k), some .interesting, none)

/-- `ComputeLatticeMeet`, source/opt/ccp_pass.cpp:101-127, for a constant. -/
def latticeMeet (v : Table I) (i k : I) : Entry I :=
  match v i with
  | none => .const k
  | some .varying => .varying
  | some (.const k') => if k' = k then .const k else .varying

/-- Record the meet: source/opt/ccp_pass.cpp:142-145 and 177-180. -/
def assignMeet (v : Table I) (i k : I) : Table I × Answer B :=
  match latticeMeet v i k with
  | .varying => (v.set i .varying, some .varying, none)
  | .const k => (v.set i (.const k), some .interesting, none)

/-- `map_func`, source/opt/ccp_pass.cpp:157-163. -/
def mapFunc (v : Table I) (d : I) : I :=
  match v d with
  | some (.const k) => k
  | _ => d

/-- `VisitAssignment`, source/opt/ccp_pass.cpp:156-204, for a foldable instruction. -/
def Func.visitFoldable (f : Func I B) (v : Table I) (i : I) : Table I × Answer B :=
  match f.fold i (mapFunc v) with
  | some k => assignMeet v i k
  | none =>
    if (f.inDefs i).any fun d => decide (v d = some .varying) then markVarying v i
    else if (f.inDefs i).any fun d => decide (v d = none) then (v, some .notInteresting, none)
    else markVarying v i

/-- The first case with the literal, source/opt/ccp_pass.cpp:274-281; only the first word of each is compared. -/
def findCase (low : Nat) (dflt : B) : List (Nat × B) → B
  | [] => dflt
  | (lit, b) :: rest => if low = lit % 2 ^ 32 then b else findCase low dflt rest

/-- `VisitInstruction`, source/opt/ccp_pass.cpp:289-300, with `VisitBranch` (207-287) and the
first part of `VisitAssignment` (129-154). A status `none` stands for
an assertion. -/
def Func.visit (f : Func I B) (v : Table I) (edges : List (B × B)) (i : I) : Table I × Answer B :=
  match f.kind i with
  | .phi => f.visitPhi v edges i
  | .br t => (v, some .interesting, some t)
  | .cond c t e =>
    match v c with
    | some (.const k) =>
      match f.const k with
      | some .null => (v, some .interesting, some e)
      | some (.bool b) => (v, some .interesting, some (if b then t else e))
      | _ => (v, none, none)
    | _ => (v, some .varying, none)
  | .switch sel dflt cases =>
    match v sel with
    | some (.const k) =>
      match f.const k with
      | some (.int n) => (v, some .interesting, some (findCase (n % 2 ^ 32) dflt cases))
      | some .null => (v, some .interesting, some (findCase 0 dflt cases))
      | _ => (v, none, none)
    | _ => (v, some .varying, none)
  | .copy src =>
    match v src with
    | some .varying => markVarying v i
    | some (.const k) => assignMeet v i k
    | none => (v, some .notInteresting, none)
  | .foldable => f.visitFoldable v i
  | .assign => markVarying v i
  | .effect => (v, some .varying, none)

/-- `Initialize` (source/opt/ccp_pass.cpp:350-374) and the parameters (331-334). -/
def Func.init (f : Func I B) : Table I := fun d =>
  if f.global d then
    match f.const d with
    | some _ => some (.const d)
    | none => some .varying
  else none

/-- The run of the propagator, source/opt/ccp_pass.cpp:336-343. -/
def Func.run (f : Func I B) (fuel : Nat) : Outcome (State I B (Table I)) :=
  Propagator.run f.toProg f.visit f.init fuel

/-- `ReplaceValues`, source/opt/ccp_pass.cpp:302-324: what a use of `d` becomes. -/
def replace (v : Table I) (d : I) : I :=
  match v d with
  | some (.const k) => k
  | _ => d

end Verif.Ccp
