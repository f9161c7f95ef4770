import Verif.IfConv.Model
import Verif.CodeSink.Model

/-!
# Model: merging of blocks (C73)

Models `blockmergeutil` (source/opt/block_merge_util.cpp) and `BlockMergePass`
(source/opt/block_merge_pass.cpp). Functions are those of `Verif.IfConv`: blocks with phis, opaque instructions,
a merge instruction and a terminator.

Simplifications:
* names, decorations, debug lines and debug scopes (block_merge_util.cpp:207-221) are left out;
* the pass goes through the blocks in order (block_merge_pass.cpp:25-41); here merges may come in any order.
-/

namespace Verif.BlockMerge
open Verif.IfConv

/-- The merge block of a merge instruction: its operand 0. -/
def mergeTarget : Merge → Lab
  | .selection m _ => m
  | .loop m _ => m

/-- `IsHeader` (block_merge_util.cpp:26). -/
def isHeader (fn : Fn) (b : Lab) : Bool := (fn.block b).merge.isSome

/-- `IsMerge` (block_merge_util.cpp:35-45). -/
def isMerge (fn : Fn) (b : Lab) : Bool :=
  fn.labels.any fun h => match (fn.block h).merge with
    | some M => mergeTarget M == b
    | none => false

/-- `IsContinue` (block_merge_util.cpp:53-62). -/
def isContinue (fn : Fn) (b : Lab) : Bool :=
  fn.labels.any fun h => match (fn.block h).merge with
    | some (.loop _ c) => c == b
    | _ => false

/-- What the pass gets from elsewhere: whether the extension SPV_KHR_maximal_reconvergence is on, and the block
with the switch around a block (`ContainingSwitch`). -/
structure Info where
  reconverge : Bool
  switch : Lab → Option Lab

/-- The test of the switch around the block (block_merge_util.cpp:141-158). -/
def switchOk (fn : Fn) (A : Info) (b : Lab) : Bool :=
  match A.switch b with
  | none => true
  | some h => (fn.succs h).all fun t => !(t == b && some t != (fn.block h).merge.map mergeTarget)

/-- `CanMergeWithSuccessor` (block_merge_util.cpp:80-161); the successor, if the blocks can be merged. -/
def canMerge (fn : Fn) (A : Info) (b : Lab) : Option Lab :=
  match (fn.block b).term with
  | .br s =>
    if (fn.preds s).length ≠ 1 then none
    else if isMerge fn b && isMerge fn s then none
    else if isMerge fn s && A.reconverge then none
    else if isMerge fn b && isContinue fn s then none
    else if (match (fn.block b).merge with
      | some M => mergeTarget M != s && (isHeader fn s ||
          match (fn.block s).term with
          | .br _ => false
          | .cond _ _ _ => false
          | .multi _ _ _ => true)
      | none => false) then none
    else if (isMerge fn s || isContinue fn s) && !switchOk fn A b then none
    else some s
  | _ => none

/-! ### Replacing ids -/

/-- `ReplaceAllUsesWith`, one use. -/
def sub (d a x : Id) : Id := if x = d then a else x

def subInst (d a : Id) : Inst → Inst
  | .op i ops => .op i (ops.map (sub d a))
  | .select i c t f => .select i (sub d a c) (sub d a t) (sub d a f)

def subPhi (d a : Id) (φ : Phi) : Phi := { φ with args := φ.args.map fun x => (sub d a x.1, x.2) }

def subTerm (d a : Id) : Term → Term
  | .br b => .br b
  | .cond c t f => .cond (sub d a c) t f
  | .multi g ops ts => .multi g (ops.map (sub d a)) ts

def subBlock (d a : Id) (blk : Block) : Block :=
  { phis := blk.phis.map (subPhi d a), body := blk.body.map (subInst d a), merge := blk.merge,
    term := subTerm d a blk.term }

/-- One round of `EliminateOpPhiInstructions` (block_merge_util.cpp:67-76): the first phi is replaced by its
first value, everywhere, and removed. -/
def dropPhi (fn : Fn) (s : Lab) : Fn :=
  match (fn.block s).phis with
  | ⟨d, _, (a, _) :: _⟩ :: rest =>
    { fn with block := fun x => subBlock d a (if x = s then { fn.block s with phis := rest } else fn.block x) }
  | _ => fn

def iter (f : Fn → Fn) : Nat → Fn → Fn
  | 0, fn => fn
  | n + 1, fn => iter f n (f fn)

/-- `EliminateOpPhiInstructions` (block_merge_util.cpp:67-76). -/
def dropPhis (fn : Fn) (s : Lab) : Fn := iter (dropPhi · s) (fn.block s).phis.length fn

/-! ### Replacing labels -/

/-- `ReplaceAllUsesWith(lab_id, bi->id())` (block_merge_util.cpp:226), one use. -/
def ren (s b x : Lab) : Lab := if x = s then b else x

def renPhi (s b : Lab) (φ : Phi) : Phi := { φ with args := φ.args.map fun x => (x.1, ren s b x.2) }

def renMerge (s b : Lab) : Merge → Merge
  | .selection m df => .selection (ren s b m) df
  | .loop m c => .loop (ren s b m) (ren s b c)

def renTerm (s b : Lab) : Term → Term
  | .br t => .br (ren s b t)
  | .cond c t f => .cond c (ren s b t) (ren s b f)
  | .multi g ops ts => .multi g ops (ts.map (ren s b))

def renBlock (s b : Lab) (blk : Block) : Block :=
  { phis := blk.phis.map (renPhi s b), body := blk.body, merge := blk.merge.map (renMerge s b),
    term := renTerm s b blk.term }

/-- Which merge instruction stays (block_merge_util.cpp:200-225): that of the first block, unless its merge
block is the second. -/
def keptMerge (fn : Fn) (b s : Lab) : Option Merge :=
  match (fn.block b).merge with
  | some M => if mergeTarget M = s then (fn.block s).merge else some M
  | none => (fn.block s).merge

/-- The rest of `MergeWithSuccessor` (block_merge_util.cpp:197-228). -/
def join (fn : Fn) (b s : Lab) : Fn where
  entry := fn.entry
  labels := fn.labels.filter (· ≠ s)
  block x :=
    if x = s then ⟨[], [], none, .multi 0 [] []⟩
    else if x = b then
      renBlock s b ⟨(fn.block b).phis, (fn.block b).body ++ (fn.block s).body, keptMerge fn b s, (fn.block s).term⟩
    else renBlock s b (fn.block x)

/-- `MergeWithSuccessor` (block_merge_util.cpp:163-229). -/
def mergeBlocks (fn : Fn) (b s : Lab) : Fn := join (dropPhis fn s) b s

/-- `MergeBlocks` (block_merge_pass.cpp:25-41). `live`: what `IsReachable` says of the function as it is. -/
inductive Merges (A : Fn → Info) (live : Fn → Lab → Prop) : Fn → Fn → Prop where
  | none {fn} : Merges A live fn fn
  | one {fn fn' b s} : live fn b → canMerge fn (A fn) b = some s → Merges A live (mergeBlocks fn b s) fn' →
      Merges A live fn fn'

end Verif.BlockMerge
