/-
# Model: rewriting local variables into SSA form

Models `SSARewriter` of `/repo/source/opt/ssa_rewrite_pass.cpp` (and its header):
loads of function-local variables are replaced by the value that reaches them,
`OpPhi` instructions being made where control flow joins.

Simplifications, for the whole file:
* every variable of the model is a target variable (`MemPass::IsTargetVar`,
  mem_pass.cpp:278-304); loads and stores of anything else are `other` instructions;
* the pointer-chasing loop of `ProcessLoad` (ssa_rewrite_pass.cpp:373-399), which
  runs again only when a variable holds a pointer, is run once;
* an `OpVariable` with an initializer is written as a `store` (ssa_rewrite_pass.cpp:312-315);
* `TakeNextId` never runs out; the `OpUndef` of a variable (`GetUndefVal`) is a fixed
  id `undef v` instead of being made on first use;
* debug values, names and decorations are left out;
* recursion and the two `while` loops run on fuel: `none` is "did not finish", or an
  assertion that failed.
-/

namespace Verif.Ssa

abbrev Id := Nat
abbrev Var := Nat
abbrev Block := Nat

/-- An instruction as the rewriter sees it (ssa_rewrite_pass.cpp:445-454). -/
inductive Inst where
  | store (v : Var) (x : Id)
  | load (r : Id) (v : Var)
  | other (r : Id) (ops : List Id)
deriving DecidableEq, Repr

/-- A function: blocks with their instructions and predecessors (`cfg()->preds`), and
the reverse post order in which reachable blocks are visited (cfg.cpp:126-139).  Block
labels are ids (`bb->id()`). -/
structure Prog where
  entry : Block
  insts : Block → List Inst
  preds : Block → List Block
  order : List Block
  undef : Var → Id

/-- `PhiCandidate` (ssa_rewrite_pass.h:52-121). -/
structure Phi where
  var : Var
  bb : Block
  args : List Id
  copyOf : Id
  complete : Bool
  users : List Id
deriving DecidableEq, Repr

/-- The members of `SSARewriter` (ssa_rewrite_pass.h:236-283).  `defs b v = 0` is "no
definition recorded".  `clobbered` is not in the code: it notes that a definition
recorded by a store was overwritten when a candidate was removed (see `replaceUser`). -/
structure St where
  defs : Block → Var → Id
  phis : Id → Option Phi
  queue : List Id
  toGen : List Id
  loads : List (Id × Id)
  isSealed : Block → Bool
  next : Id
  clobbered : Bool

/-- Change the candidate `p`, if there is one. -/
def modPhi (st : St) (p : Id) (f : Phi → Phi) : St :=
  { st with phis := fun x => if x = p then (st.phis x).map f else st.phis x }

/-- `PhiCandidate::AddUser` after `GetPhiCandidate` (ssa_rewrite_pass.h:91, 143-146):
nothing when `p` is not a candidate. -/
def addUser (st : St) (p u : Id) : St :=
  modPhi st p fun ph => { ph with users := ph.users ++ [u] }

/-- `defs_at_block_[bb][var_id] = val_id` (ssa_rewrite_pass.h:191). -/
def setDef (st : St) (v : Var) (b : Block) (x : Id) : St :=
  { st with defs := fun b' v' => if b' = b ∧ v' = v then x else st.defs b' v' }

/-- `WriteVariable` (ssa_rewrite_pass.h:190-195). -/
def writeVar (st : St) (v : Var) (b : Block) (x : Id) : St := addUser (setDef st v b x) x b

/-- Not in the code: keep the note described at `St`. -/
def note (st : St) (c : Bool) : St := { st with clobbered := st.clobbered || c }

/-- Replace one id by another. -/
def subst (p q x : Id) : Id := if x = p then q else x

/-- The body of the loop of `ReplacePhiUsersWith` (ssa_rewrite_pass.cpp:104-128), for
the removed candidate `p` of variable `v`. -/
def replaceUser (P : Prog) (p : Id) (v : Var) (repl : Id) (st : St) (u : Id) : St :=
  if (st.phis u).isSome then
    modPhi st u fun ph => { ph with args := ph.args.map (subst p repl) }
  else if P.order.contains u then
    note (writeVar st v u repl) (st.defs u v != p && st.defs u v != repl)
  else
    { st with loads := st.loads.map fun e => (e.1, subst p repl e.2) }

/-- The loop of `TryRemoveTrivialPhi` (ssa_rewrite_pass.cpp:132-146): `none` when two
values are merged, else the one value (0 when there is none). -/
def sameArg (p : Id) : List Id → Id → Option Id
  | [], same => some same
  | a :: as, same =>
    if a = same ∨ a = p then sameArg p as same
    else if same ≠ 0 then none
    else sameArg p as a

/-- `TryRemoveTrivialPhi` (ssa_rewrite_pass.cpp:131-165).  The assertion on line 158 is
the outcome `none`. -/
def tryRemove (P : Prog) (st : St) (p : Id) : Option (Id × St) :=
  match st.phis p with
  | none => none
  | some ph =>
    match sameArg p ph.args 0 with
    | none => some (p, st)
    | some 0 => none
    | some (s + 1) =>
      some (s + 1, ph.users.foldl (replaceUser P p ph.var (s + 1))
        (modPhi st p fun ph => { ph with copyOf := s + 1 }))

/-- `phi_args().push_back` and the registration as a user (ssa_rewrite_pass.cpp:211-222). -/
def pushArg (st : St) (p a : Id) : St :=
  let st1 := modPhi st p fun ph => { ph with args := ph.args ++ [a] }
  if a ≠ 0 ∧ a ≠ p then addUser st1 a p else st1

/-- The loop of `AddPhiOperands` over the predecessors (ssa_rewrite_pass.cpp:172-223). -/
def addArgs (rec : Block → St → Option (Id × St)) (p : Id) : List Block → St → Option St
  | [], st => some st
  | b :: bs, st =>
    if st.isSealed b then
      match rec b st with
      | none => none
      | some (a, st1) => addArgs rec p bs (pushArg st1 p a)
    else addArgs rec p bs (pushArg st p 0)

/-- `phis_to_generate_.push_back` (ssa_rewrite_pass.cpp:239, 634). -/
def pushGen (st : St) (p : Id) : St := { st with toGen := st.toGen ++ [p] }

/-- `incomplete_phis_.push` (ssa_rewrite_pass.cpp:229). -/
def pushQueue (st : St) (p : Id) : St := { st with queue := st.queue ++ [p] }

/-- Lines 235-240 (and 630-635): a candidate that stays is put on the list of phis to
generate. -/
def keep (p : Id) (r : Id × St) : Id × St :=
  if r.1 = p then
    (p, pushGen (modPhi r.2 p fun ph => { ph with complete := true }) p)
  else r

/-- `AddPhiOperands` (ssa_rewrite_pass.cpp:167-243).  `found_0_arg` is read off the
arguments. -/
def addOperands (P : Prog) (rec : Block → St → Option (Id × St)) (p : Id) (bs : List Block)
    (st : St) : Option (Id × St) :=
  match addArgs rec p bs st with
  | none => none
  | some st1 =>
    match st1.phis p with
    | none => none
    | some ph =>
      if ph.args.contains 0 then
        some (p, pushQueue (modPhi st1 p fun ph => { ph with complete := false }) p)
      else (tryRemove P st1 p).map (keep p)

/-- The end of `GetReachingDef` (ssa_rewrite_pass.cpp:281-292). -/
def finish (P : Prog) (v : Var) (b : Block) (x : Id) (st : St) : Id × St :=
  let y := if x = 0 then P.undef v else x
  (y, writeVar st v b y)

/-- `CreatePhiCandidate` (ssa_rewrite_pass.cpp:90-100). -/
def newPhi (v : Var) (b : Block) (st : St) : St :=
  { st with
    phis := fun x => if x = st.next then some ⟨v, b, [], 0, false, []⟩ else st.phis x
    next := st.next + 1 }

/-- The new candidate and the `WriteVariable` after it (ssa_rewrite_pass.cpp:273-277). -/
def create (v : Var) (b : Block) (st : St) : St := writeVar (newPhi v b st) v b st.next

/-- `GetReachingDef` (ssa_rewrite_pass.cpp:258-293). -/
def reach (P : Prog) (v : Var) : Nat → Block → St → Option (Id × St)
  | 0, _, _ => none
  | n + 1, b, st =>
    if st.defs b v ≠ 0 then some (st.defs b v, st)
    else
      match P.preds b with
      | [] => some (finish P v b 0 st)
      | [p] => (reach P v n p st).map fun r => finish P v b r.1 r.2
      | p :: q :: ps =>
        (addOperands P (reach P v n) st.next (p :: q :: ps) (create v b st)).map
          fun r => finish P v b r.1 r.2

/-- `load_replacement_[load_id] = val_id` (ssa_rewrite_pass.cpp:406). -/
def pushLoad (st : St) (r x : Id) : St := { st with loads := st.loads ++ [(r, x)] }

/-- `ProcessStore` and `ProcessLoad` (ssa_rewrite_pass.cpp:302-419). -/
def procInst (P : Prog) (fuel : Nat) (b : Block) (st : St) : Inst → Option St
  | .store v x => some (writeVar st v b x)
  | .load r v =>
    match reach P v fuel b st with
    | none => none
    | some (x, st1) => some (addUser (pushLoad st1 r x) x r)
  | .other _ _ => some st

/-- The instructions of a block in order (ssa_rewrite_pass.cpp:445-454). -/
def procInsts (P : Prog) (fuel : Nat) (b : Block) : List Inst → St → Option St
  | [], st => some st
  | i :: is, st =>
    match procInst P fuel b st i with
    | none => none
    | some st1 => procInsts P fuel b is st1

/-- `SealBlock` (ssa_rewrite_pass.cpp:295-300). -/
def sealBlock (st : St) (b : Block) : St :=
  { st with isSealed := fun x => if x = b then true else st.isSealed x }

/-- `GenerateSSAReplacements` over the blocks in reverse post order
(ssa_rewrite_pass.cpp:438-466, 664-670). -/
def procBlocks (P : Prog) (fuel : Nat) : List Block → St → Option St
  | [], st => some st
  | b :: bs, st =>
    match procInsts P fuel b (P.insts b) st with
    | none => none
    | some st1 =>
      procBlocks P fuel bs (sealBlock st1 b)

/-- The loop of `FinalizePhiCandidate` (ssa_rewrite_pass.cpp:612-623). -/
def fillArgs (P : Prog) (rec : Block → St → Option (Id × St)) (v : Var) (p : Id) :
    List Block → Nat → St → Option St
  | [], _, st => some st
  | b :: bs, i, st =>
    match st.phis p with
    | none => none
    | some ph =>
      if ph.args.getD i 0 = 0 then
        if st.isSealed b then
          match rec b st with
          | none => none
          | some (a, st1) =>
            fillArgs P rec v p bs (i + 1)
              (modPhi st1 p fun ph => { ph with args := ph.args.set i a })
        else
          fillArgs P rec v p bs (i + 1)
            (modPhi st p fun ph => { ph with args := ph.args.set i (P.undef v) })
      else fillArgs P rec v p bs (i + 1) st

/-- `FinalizePhiCandidate` (ssa_rewrite_pass.cpp:608-636). -/
def finalizePhi (P : Prog) (fuel : Nat) (p : Id) (st : St) : Option St :=
  match st.phis p with
  | none => none
  | some ph =>
    match fillArgs P (reach P ph.var fuel) ph.var p (P.preds ph.bb) 0 st with
    | none => none
    | some st1 =>
      (tryRemove P (modPhi st1 p fun ph => { ph with complete := true }) p).map
        fun r => (keep p r).2

/-- `FinalizePhiCandidates` (ssa_rewrite_pass.cpp:638-651): first in, first out. -/
def finalizeAll (P : Prog) (fuel : Nat) : Nat → St → Option St
  | 0, st => if st.queue.isEmpty then some st else none
  | n + 1, st =>
    match st.queue with
    | [] => some st
    | p :: q =>
      match finalizePhi P fuel p { st with queue := q } with
      | none => none
      | some st1 => finalizeAll P fuel n st1

/-- `GetPhiArgument` (ssa_rewrite_pass.cpp:478-498): follow the copies. -/
def resolve (st : St) : Nat → Id → Option Id
  | 0, _ => none
  | n + 1, a =>
    if a = 0 then none
    else
      match st.phis a with
      | none => some a
      | some ph => if ph.complete && ph.copyOf == 0 then some a else resolve st n ph.copyOf

/-- `GetReplacement` (ssa_rewrite_pass.cpp:468-476): follow the replaced loads. -/
def follow (loads : List (Id × Id)) : Nat → Id → Option Id
  | 0, _ => none
  | n + 1, a =>
    match loads.lookup a with
    | none => some a
    | some x => follow loads n x

/-- What the pass leaves: the new phis, each with its block and one value for every
predecessor, and for every removed load the id put in its place. -/
structure Out where
  phis : List (Id × Block × List (Block × Id))
  repl : List (Id × Id)
deriving DecidableEq, Repr

/-- The operands of one new phi (ssa_rewrite_pass.cpp:524-544); an operand that is a
replaced load is replaced as well (`ReplaceAllUsesWith`, line 600).  A second edge from
the same predecessor stays in the list, where the first one is what is looked up. -/
def emitPhi (P : Prog) (st : St) (fuel : Nat) (p : Id) : Option (Id × Block × List (Block × Id)) :=
  match st.phis p with
  | none => none
  | some ph =>
    match ph.args.mapM fun a => (resolve st fuel a).bind (follow st.loads fuel) with
    | none => none
    | some args => some (p, ph.bb, (P.preds ph.bb).zip args)

/-- `ApplyReplacements` (ssa_rewrite_pass.cpp:500-606). -/
def emit (P : Prog) (st : St) (fuel : Nat) : Option Out :=
  match st.toGen.mapM (emitPhi P st fuel),
    st.loads.mapM (fun e => (follow st.loads fuel e.2).map fun x => (e.1, x)) with
  | some phis, some repl => some ⟨phis, repl⟩
  | _, _ => none

/-- The state before the first block. -/
def start (fresh : Id) : St := ⟨fun _ _ => 0, fun _ => none, [], [], [], fun _ => false, fresh, false⟩

/-- `RewriteFunctionIntoSSA` up to the replacements (ssa_rewrite_pass.cpp:653-677). -/
def run (P : Prog) (fuel : Nat) (fresh : Id) : Option St :=
  (procBlocks P fuel P.order (start fresh)).bind (finalizeAll P fuel fuel)

/-- `RewriteFunctionIntoSSA` (ssa_rewrite_pass.cpp:653-689); `fresh` is the id bound of
the module.  The second component is the note `clobbered`. -/
def rewrite (P : Prog) (fuel : Nat) (fresh : Id) : Option (Out × Bool) :=
  (run P fuel fresh).bind fun st => (emit P st fuel).map fun o => (o, st.clobbered)

end Verif.Ssa
