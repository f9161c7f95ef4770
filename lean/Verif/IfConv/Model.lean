/-!
# Model: if-conversion (C70)

Models `IfConversion` of source/opt/if_conversion.cpp: phis at the end of a selection that become
selects.

Simplifications:
* ids and blocks are numbers; instructions other than phis and selects are opaque;
* a select takes over the id of the phi it stands for, instead of a new id that replaces the phi in
  all its uses (lines 130-136);
* for vectors the condition is widened first (lines 123-127, 197-211); this is left out, as a select
  on a widened condition picks the same value;
* phis with two values of the same value number are left alone, while the code replaces them by one of
  the values, which it may move (lines 83-111, 238-296): this part is not modelled;
* dominators come from an analysis that is a parameter.
-/

namespace Verif.IfConv

abbrev Id := Nat
abbrev Lab := Nat

/-- `OpPhi`: values, each with the block it comes from; whether its type passes `CheckType`
(if_conversion.cpp:213-220). -/
structure Phi where
  id : Id
  tyOk : Bool
  args : List (Id × Lab)
  deriving DecidableEq, Repr

/-- An instruction in the body of a block. -/
inductive Inst where
  | op (id : Id) (ops : List Id)
  | select (id cond t f : Id)
  deriving DecidableEq, Repr

/-- A terminator. `multi` stands for all but `OpBranch` and `OpBranchConditional`: it has a tag, operands
and targets (none for a return). -/
inductive Term where
  | br (b : Lab)
  | cond (c : Id) (t f : Lab)
  | multi (tag : Id) (ops : List Id) (targets : List Lab)
  deriving DecidableEq, Repr

/-- A merge instruction. `dontFlatten`: the selection control is DontFlatten. -/
inductive Merge where
  | selection (b : Lab) (dontFlatten : Bool)
  | loop (b : Lab) (cont : Lab)
  deriving DecidableEq, Repr

structure Block where
  phis : List Phi
  body : List Inst
  merge : Option Merge
  term : Term
  deriving DecidableEq, Repr

/-- A function: its first block, its blocks in order, what each is. -/
structure Fn where
  entry : Lab
  labels : List Lab
  block : Lab → Block

/-- Successors of a terminator, with repetitions. -/
def Term.succs : Term → List Lab
  | .br b => [b]
  | .cond _ t f => [t, f]
  | .multi _ _ ts => ts

/-- Successors of a block. -/
def Fn.succs (fn : Fn) (b : Lab) : List Lab := (fn.block b).term.succs

/-- `cfg()->preds`: one entry for each edge (source/opt/cfg.h, `CFG::RegisterBlock`). -/
def Fn.preds (fn : Fn) (b : Lab) : List Lab :=
  fn.labels.flatMap fun p => ((fn.succs p).filter (· = b)).map fun _ => p

/-- What the pass gets from other analyses: dominators, the nearest common dominator (none for the
pseudo entry block), the block of an id (`get_instr_block`, none for ids of the module) and whether two ids
have the same value number. -/
structure Info where
  dom : Lab → Lab → Bool
  common : Lab → Lab → Option Lab
  defBlock : Id → Option Lab
  sameVn : Id → Id → Bool

/-- `MergeBlockIdIfAny`, of a selection that may be flattened (if_conversion.cpp:176-182). -/
def Merge.isSelectionTo (b : Lab) : Option Merge → Bool
  | some (.selection m dontFlatten) => !dontFlatten && m == b
  | _ => false

/-- `CheckBlock` (if_conversion.cpp:151-185): the block that branches, with its condition and its
targets. -/
def checkBlock (fn : Fn) (A : Info) (b : Lab) : Option (Lab × Id × Lab × Lab) :=
  match fn.preds b with
  | [inc0, inc1] =>
    if A.dom b inc0 then none
    else if A.dom b inc1 then none
    else if inc0 = inc1 then none
    else
      match A.common inc0 inc1 with
      | none => none
      | some c =>
        match (fn.block c).term with
        | .cond cond t f =>
          if Merge.isSelectionTo b (fn.block c).merge then some (c, cond, t, f) else none
        | _ => none
  | _ => none

/-- `CheckPhiUsers` (if_conversion.cpp:187-195): no phi of the block uses this one. -/
def usersOk (blk : Block) (φ : Phi) : Bool :=
  blk.phis.all fun ψ => ψ.args.all fun a => a.1 != φ.id

/-- `!def_block || Dominates(def_block, block)` (if_conversion.cpp:117-121). -/
def defOk (A : Info) (b : Lab) (d : Id) : Bool :=
  match A.defBlock d with
  | none => true
  | some db => A.dom db b

/-- The body of `ForEachPhiInst` (if_conversion.cpp:50-140): the select a phi of block `b` turns into, if
it does. -/
def convertPhi (fn : Fn) (A : Info) (b c : Lab) (cond : Id) (thenB : Lab) (φ : Phi) : Option Inst :=
  match φ.args with
  | [(v0, inc0), (v1, _)] =>
    if !φ.tyOk then none
    else if !usersOk (fn.block b) φ then none
    else
      let tf :=
        if (thenB = b ∧ inc0 = c) ∨ A.dom thenB inc0 = true then (v0, v1) else (v1, v0)
      if A.sameVn tf.1 tf.2 then none
      else if !defOk A b tf.1 then none
      else if !defOk A b tf.2 then none
      else some (.select φ.id cond tf.1 tf.2)
  | _ => none

/-- What a phi of block `b` turns into. -/
def converted (fn : Fn) (A : Info) (b : Lab) (φ : Phi) : Option Inst :=
  match checkBlock fn A b with
  | some (c, cond, t, _) => convertPhi fn A b c cond t φ
  | none => none

/-- One block: phis that are converted go, the selects come before the other instructions
(if_conversion.cpp:41-49, 130-136, 144-146). -/
def convertBlock (fn : Fn) (A : Info) (b : Lab) : Block :=
  { fn.block b with
    phis := (fn.block b).phis.filter fun φ => (converted fn A b φ).isNone
    body := (fn.block b).phis.filterMap (converted fn A b) ++ (fn.block b).body }

/-- `IfConversion::Process` (if_conversion.cpp:25-149) on a function. `shader`: the module has the
capability Shader. -/
def convert (shader : Bool) (fn : Fn) (A : Info) : Fn :=
  if shader then { fn with block := convertBlock fn A } else fn

end Verif.IfConv
