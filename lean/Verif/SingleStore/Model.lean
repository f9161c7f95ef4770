import Verif.SsaExec.Replace
/-!
# Local single store elimination

Model of `LocalSingleStoreElimPass` (/repo/source/opt/local_single_store_elim_pass.cpp) for one function.
Simplifications:
* instructions and ids are the same thing: an instruction without result is an id that nothing uses;
* names and decorations are not instructions of the model (they are always accepted);
* the changes to debug instructions (lines 184-196) are left out;
* recursions through pointers are given fuel `n`; the theorems ask that it is enough;
* the answer of the dominator analysis is a parameter `dom` (C14, C15 are about dominators).
-/
namespace Verif.SingleStore
open Verif.SsaExec

inductive Kind where
  /-- OpVariable -/
  | variable
  /-- OpAccessChain, OpInBoundsAccessChain -/
  | chain
  /-- OpCopyObject -/
  | copy
  | load
  | store
  /-- OpImageTexelPointer -/
  | texel
  /-- DebugDeclare, DebugValue -/
  | debug
  | other
  deriving DecidableEq

structure Func (I B : Type) where
  entry : B
  blocks : List B
  phis : B → List I
  body : B → List I
  kind : I → Kind
  /-- for a load the pointer; for a store the pointer and the object; for a variable the initializer -/
  ops : I → List I
  args : I → List (I × B)
  succs : I → List B
  /-- answer of `DominatorAnalysis::Dominates` for two instructions -/
  dom : I → I → Bool

variable {I B : Type} [DecidableEq I]

def Func.code (f : Func I B) : Code I B where
  entry := f.entry
  phis := f.phis
  body := f.body
  ops i := (f.ops i).map .id
  args p := (f.args p).map fun a => (.id a.1, a.2)
  succs := f.succs

def Func.all (f : Func I B) (b : B) : List I := f.phis b ++ f.body b

def Func.insts (f : Func I B) : List I := f.blocks.flatMap f.all

structure State (I : Type) where
  /-- what stands now for each id -/
  sub : I → I
  /-- instructions killed so far -/
  kill : List I

/-- `ForEachUser` (def_use_manager.cpp:133-143) at this point of the pass. -/
def Func.users (f : Func I B) (s : State I) (p : I) : List I :=
  f.insts.filter fun u => decide (u ∉ s.kill) &&
    (decide (p ∈ (f.ops u).map s.sub) || decide (p ∈ (f.args u).map fun a => s.sub a.1))

/-- `FindUses`: lines 266-275. -/
def Func.findUses (f : Func I B) (s : State I) : Nat → I → List I
  | 0, _ => []
  | n + 1, p => (f.users s p).flatMap fun u => u :: if f.kind u = .copy then f.findUses s n u else []

/-- `FeedsAStore`: lines 277-297. -/
def Func.feedsStore (f : Func I B) (s : State I) : Nat → I → Bool
  | 0, _ => true
  | n + 1, p => (f.users s p).any fun u =>
    match f.kind u with
    | .store => true
    | .chain => f.feedsStore s n u
    | .copy => f.feedsStore s n u
    | .load => false
    | .texel => false
    | _ => true

/-- The loop of `FindSingleStoreAndCheckUses`: lines 220-262. -/
def Func.check (f : Func I B) (s : State I) (n : Nat) : List I → Option I → Option I
  | [], st => st
  | u :: us, st =>
    match f.kind u with
    | .store =>
      match st with
      | none => f.check s n us (some u)
      | some _ => none
    | .chain => if f.feedsStore s n u then none else f.check s n us st
    | .load => f.check s n us st
    | .texel => f.check s n us st
    | .copy => f.check s n us st
    | .debug => f.check s n us st
    | _ => none

/-- `FindSingleStoreAndCheckUses`: lines 210-264. An initializer counts as a store. -/
def Func.single (f : Func I B) (s : State I) (n : Nat) (v : I) : Option I :=
  f.check s n (f.findUses s n v) (if f.ops v = [] then none else some v)

/-- `stored_id`: lines 306-310. -/
def Func.stored (f : Func I B) (s : State I) (st : I) : Option I :=
  if f.kind st = .store then (f.ops st)[1]?.map s.sub else (f.ops st)[0]?.map s.sub

/-- `ReplaceAllUsesWith`. -/
def replaceAll (sub : I → I) (old new : I) : I → I := fun d => if sub d = old then new else sub d

/-- One use in `RewriteLoads`: lines 315-328. -/
def Func.rewrite (f : Func I B) (st w : I) (s : State I) (u : I) : State I :=
  if f.kind u = .load ∧ f.dom st u = true then ⟨replaceAll s.sub u w, u :: s.kill⟩ else s

/-- `ProcessVariable`: lines 171-182. -/
def Func.process (f : Func I B) (n : Nat) (s : State I) (v : I) : State I :=
  match f.single s n v with
  | none => s
  | some st =>
    match f.stored s st with
    | none => s
    | some w => (f.findUses s n v).foldl (f.rewrite st w) s

/-- The variables at the start of the entry block: lines 35-39. -/
def Func.variables (f : Func I B) : List I := (f.body f.entry).takeWhile fun i => decide (f.kind i = .variable)

/-- `LocalSingleStoreElim`: lines 31-43. -/
def Func.run (f : Func I B) (n : Nat) : State I := f.variables.foldl (f.process n) ⟨id, []⟩

def Func.removed (f : Func I B) (n : Nat) (i : I) : Bool := decide (i ∈ (f.run n).kill)

/-- The function after the pass. -/
def Func.after (f : Func I B) (n : Nat) : Code I B where
  entry := f.entry
  phis b := (f.phis b).filter fun i => !f.removed n i
  body b := (f.body b).filter fun i => !f.removed n i
  ops i := (f.ops i).map fun d => .id ((f.run n).sub d)
  args p := (f.args p).map fun a => (.id ((f.run n).sub a.1), a.2)
  succs := f.succs

end Verif.SingleStore
