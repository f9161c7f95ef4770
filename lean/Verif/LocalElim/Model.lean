import Verif.SsaExec.Replace
/-!
# Local single block load/store elimination

Model of `LocalSingleBlockLoadStoreElimPass` (/repo/source/opt/local_single_block_elim_pass.cpp) for one
function. Simplifications:
* instructions and ids are the same thing: an instruction without result is an id that nothing uses;
* `HasOnlySupportedRefs` looks at the uses before the pass; the code looks at them when it first meets
  the variable, and remembers the answer (line 32). The two can differ only if a load of a pointer was
  replaced before;
* names and decorations are not instructions of the model (they are always accepted, line 45);
* recursions through pointers are given fuel `n`; the theorems ask that it is enough;
* `OpPtrAccessChain`, `OpInBoundsPtrAccessChain` and `OpImageTexelPointer` are `other`: `GetBaseAddress`
  walks through them, but a variable with such a use is refused by `HasOnlySupportedRefs` at once.
-/
namespace Verif.LocalElim
open Verif.SsaExec

inductive Kind where
  /-- OpVariable of the function -/
  | variable
  /-- OpAccessChain, OpInBoundsAccessChain, OpUntypedAccessChainKHR (mem_pass.cpp:73-77) -/
  | chain
  /-- OpCopyObject -/
  | copy
  | load
  | store
  /-- OpFunctionCall -/
  | call
  /-- DebugDeclare, DebugValue -/
  | debug
  | other
  deriving DecidableEq

structure Func (I B : Type) where
  entry : B
  /-- the blocks, in the order of the function -/
  blocks : List B
  phis : B → List I
  body : B → List I
  kind : I → Kind
  /-- for a load the pointer; for a store the pointer and the object -/
  ops : I → List I
  args : I → List (I × B)
  succs : I → List B
  /-- answer of `IsTargetVar` for a variable: Function storage class, suitable type (mem_pass.cpp:278-304) -/
  target : I → Bool
  /-- answer of `IsVariableDebugDeclared` -/
  declared : I → Bool

variable {I B : Type} [DecidableEq I]

def Func.code (f : Func I B) : Code I B where
  entry := f.entry
  phis := f.phis
  body := f.body
  ops i := (f.ops i).map .id
  args p := (f.args p).map fun a => (.id a.1, a.2)
  succs := f.succs

/-- The instructions of a block, phis first. -/
def Func.all (f : Func I B) (b : B) : List I := f.phis b ++ f.body b

def Func.insts (f : Func I B) : List I := f.blocks.flatMap f.all

/-- `WhileEachUser` (def_use_manager.cpp): the instructions with this operand. -/
def Func.users (f : Func I B) (p : I) : List I :=
  f.insts.filter fun u => decide (p ∈ f.ops u) || decide (p ∈ (f.args u).map Prod.fst)

/-- `HasOnlySupportedRefs` (local_single_block_elim_pass.cpp:31-54). A store is accepted whether `p` is
its pointer or its object. -/
def Func.supported (f : Func I B) : Nat → I → Bool
  | 0, _ => false
  | n + 1, p => (f.users p).all fun u =>
    match f.kind u with
    | .debug => true
    | .chain => f.supported n u
    | .copy => f.supported n u
    | .store => true
    | .load => true
    | _ => false

/-- The variable found by `GetPtr` (mem_pass.cpp:107-133) and `GetBaseAddress` (instruction.cpp:254-277). -/
def Func.base (f : Func I B) : Nat → I → Option I
  | 0, _ => none
  | n + 1, p =>
    match f.kind p, f.ops p with
    | .variable, _ => some p
    | .chain, q :: _ => f.base n q
    | .copy, q :: _ => f.base n q
    | _, _ => none

/-- The pointer without the copies: mem_pass.cpp:135-138. -/
def Func.strip (f : Func I B) : Nat → I → I
  | 0, p => p
  | n + 1, p =>
    match f.kind p, f.ops p with
    | .copy, q :: _ => f.strip n q
    | _, _ => p

structure State (I : Type) where
  /-- what stands now for each id -/
  sub : I → I
  /-- `instructions_to_kill` -/
  kill : List I
  /-- `instructions_to_save` -/
  save : List I
  /-- `var2store_` -/
  st : I → Option I
  /-- `var2load_` -/
  ld : I → Option I

def set (m : I → Option I) (v : I) (x : Option I) : I → Option I := fun u => if u = v then x else m u

/-- Lines 72-75, 79 and 118-121: the variable accessed through `p`, if the pass handles it, and whether
it is accessed as a whole. -/
def Func.access (f : Func I B) (n : Nat) (s : State I) (p : I) : Option (I × Bool) :=
  match f.base n (s.sub p) with
  | none => none
  | some v => if f.target v && f.supported n v then some (v, decide (f.kind (f.strip n (s.sub p)) = .variable)) else none

/-- `ReplaceAllUsesWith`. -/
def replaceAll (sub : I → I) (old new : I) : I → I := fun d => if sub d = old then new else sub d

/-- The instructions to kill when `v` is stored to again: lines 83-90. -/
def Func.killPrev (f : Func I B) (s : State I) (v : I) : List I :=
  match s.st v with
  | some prev => if prev ∉ s.save ∧ f.declared v = false then prev :: s.kill else s.kill
  | none => s.kill

/-- A store of `w` to the whole of `v`: lines 80-109. -/
def Func.storeWhole (f : Func I B) (s : State I) (i w v : I) : State I :=
  if s.ld v = some (s.sub w) then { s with kill := i :: f.killPrev s v }
  else { s with kill := f.killPrev s v, st := set s.st v (some i), ld := set s.ld v none }

/-- The object operand of a store: `GetSingleWordInOperand(kStoreValIdInIdx)`. -/
def Func.object (f : Func I B) (i : I) : Option I := (f.ops i)[1]?

/-- A load of the whole of `v`: lines 123-134, 141-150. -/
def Func.loadWhole (f : Func I B) (s : State I) (i v : I) : State I :=
  match s.st v with
  | some prev =>
    match f.object prev with
    | some w => { s with sub := replaceAll s.sub i (s.sub w), kill := i :: s.kill }
    | none => s
  | none =>
    match s.ld v with
    | some l => { s with sub := replaceAll s.sub i l, kill := i :: s.kill }
    | none => { s with ld := set s.ld v (some i) }

/-- A load of a part of `v`: lines 135-140. -/
def loadPart (s : State I) (v : I) : State I :=
  match s.st v with
  | some prev => { s with save := prev :: s.save }
  | none => s

/-- One instruction: lines 67-161. -/
def Func.step (f : Func I B) (n : Nat) (s : State I) (i : I) : State I :=
  match f.kind i, f.ops i with
  | .store, [p, w] =>
    match f.access n s p with
    | none => s
    | some (v, true) => f.storeWhole s i w v
    | some (v, false) => { s with st := set s.st v none, ld := set s.ld v none }
  | .load, [p] =>
    match f.access n s p with
    | none => s
    | some (v, true) => f.loadWhole s i v
    | some (v, false) => loadPart s v
  | .call, _ => { s with st := fun _ => none, ld := fun _ => none }
  | _, _ => s

/-- The start of a block: lines 64-65. -/
def enter (s : State I) : State I := { s with st := fun _ => none, ld := fun _ => none }

/-- One block: lines 63-162. -/
def Func.block (f : Func I B) (n : Nat) (s : State I) (b : B) : State I := (f.all b).foldl (f.step n) (enter s)

def init : State I := ⟨id, [], [], fun _ => none, fun _ => none⟩

/-- `LocalSingleBlockLoadStoreElim` (lines 56-162) on the blocks. -/
def Func.run (f : Func I B) (n : Nat) : State I := f.blocks.foldl (f.block n) init

/-- Whether the pass removes the instruction: lines 164-166. -/
def Func.removed (f : Func I B) (n : Nat) (i : I) : Bool := decide (i ∈ (f.run n).kill)

/-- The function after the pass. -/
def Func.after (f : Func I B) (n : Nat) : Code I B where
  entry := f.entry
  phis b := (f.phis b).filter fun i => !f.removed n i
  body b := (f.body b).filter fun i => !f.removed n i
  ops i := (f.ops i).map fun d => .id ((f.run n).sub d)
  args p := (f.args p).map fun a => (.id ((f.run n).sub a.1), a.2)
  succs := f.succs

end Verif.LocalElim
