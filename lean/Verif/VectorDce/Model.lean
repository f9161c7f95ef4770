import Verif.SsaExec.Spec
/-!
# Vector dead code elimination (`source/opt/vector_dce.cpp`)

The pass finds the components of vectors that are used and removes insertions into components that
are not. A set of components (`utils::BitVector`, `source/util/bit_vector.h`) is a number here, one
bit for a component; that class is modelled on its own in `Verif.BitVector`. Debug instructions, names
and decorations are left out, and an instruction that the pass deletes (`vector_dce.cpp:343`) stays in
the code here, unused (theorem `deleted_unused`).
-/
namespace Verif.VectorDce
open Verif.SsaExec

/-- What the pass sees of the type of a result (`HasVectorResult`, `HasScalarResult`,
`vector_dce.cpp:268-298`, and `GetVectorComponentCount`, `vector_dce.cpp:300-310`). -/
inductive Shape where
  | scalar
  | vec (n : Nat)
  | other
  deriving DecidableEq

/-- What the pass sees of an opcode (the switch of `FindLiveComponents`, `vector_dce.cpp:68-92`); the
literal operands of the instruction are with it. `lanes` is `Instruction::IsScalarizable`
(`instruction.cpp:986-1055`), which phis also are. -/
inductive Kind where
  | extract (idx : List Nat)
  | insert (idx : List Nat)
  | shuffle (idx : List Nat)
  | construct
  | lanes
  | plain
  deriving DecidableEq

/-- A function, as the pass sees it. -/
structure Func (I B : Type) where
  entry : B
  /-- the blocks in the order of the function -/
  blocks : List B
  phis : B → List I
  body : B → List I
  /-- the id operands of an instruction that is not a phi -/
  ops : I → List I
  args : I → List (I × B)
  succs : I → List B
  shape : I → Shape
  kind : I → Kind
  /-- `IRContext::IsCombinatorInstruction` (`ir_context.h:524-538`) -/
  combinator : I → Bool

variable {I B : Type} [DecidableEq I]

/-- `BitVector::Clear` (`bit_vector.h:59-77`). -/
def clear (b p : Nat) : Nat := b ^^^ (b &&& 2 ^ p)

/-- `all_components_live_` (`vector_dce.h:33`, `vector_dce.h:43-47`): the first 16 components. -/
def allLive : Nat := 2 ^ 16 - 1

/-- `HasVectorOrScalarResult` (`vector_dce.cpp:264-266`). -/
def Func.tracked (f : Func I B) (d : I) : Bool := f.shape d != .other

/-- All the ids an instruction uses (`ForEachInId`); labels have no type and are left out. -/
def Func.uses (f : Func I B) (i : I) : List I := f.ops i ++ (f.args i).map (·.1)

/-- `GetVectorComponentCount` (`vector_dce.cpp:300-310`); only asked of vectors. -/
def Func.count (f : Func I B) (d : I) : Nat :=
  match f.shape d with
  | .vec n => n
  | _ => 0

/-- The items `MarkUsesAsLive` adds (`vector_dce.cpp:240-262`). -/
def Func.markUses (f : Func I B) (i : I) (live : Nat) : List (I × Nat) :=
  (f.uses i).filterMap fun d =>
    match f.shape d with
    | .vec _ => some (d, live)
    | .scalar => some (d, 1)
    | .other => none

/-- The items `MarkExtractUseAsLive` adds (`vector_dce.cpp:96-119`). -/
def Func.markExtract (f : Func I B) (i : I) (idx : List Nat) (live : Nat) : List (I × Nat) :=
  match f.ops i with
  | [c] =>
    if f.tracked c then
      match idx with
      | [] => [(c, live)]
      | j :: _ => [(c, if j < f.count c then 2 ^ j else 0)]
    else []
  | _ => []

/-- The items `MarkInsertUsesAsLive` adds (`vector_dce.cpp:121-166`). -/
def Func.markInsert (f : Func I B) (i : I) (idx : List Nat) (live : Nat) : List (I × Nat) :=
  match f.ops i with
  | [o, c] =>
    match idx with
    | p :: _ => (c, clear live p) :: (if live.testBit p then [(o, 1)] else [])
    | [] => [(o, live)]
  | _ => []

/-- The components of the first and of the second operand of a shuffle that are used
(`vector_dce.cpp:186-196`): a loop over the literals `idx`, the first of which is number `k`. -/
def shuffleUses (n1 n2 live : Nat) : List Nat → Nat → Nat × Nat
  | [], _ => (0, 0)
  | n :: idx, k =>
    let r := shuffleUses n1 n2 live idx (k + 1)
    if live.testBit k then
      if n < n1 then (r.1 ||| 2 ^ n, r.2)
      else if n - n1 < n2 then (r.1, r.2 ||| 2 ^ (n - n1))
      else r
    else r

/-- The items `MarkVectorShuffleUsesAsLive` adds (`vector_dce.cpp:168-200`). -/
def Func.markShuffle (f : Func I B) (i : I) (idx : List Nat) (live : Nat) : List (I × Nat) :=
  match f.ops i with
  | [a, b] =>
    let r := shuffleUses (f.count a) (f.count b) live idx 0
    [(a, r.1), (b, r.2)]
  | _ => []

/-- The components `k`, …, `k + n - 1` of `live`, as components `0`, …, `n - 1`
(`vector_dce.cpp:229-234`). -/
def slice (live k : Nat) : Nat → Nat
  | 0 => 0
  | n + 1 => slice live k n ||| (if live.testBit (k + n) then 2 ^ n else 0)

/-- The items `MarkCompositeContructUsesAsLive` adds for operands that start at component `k`
(`vector_dce.cpp:208-237`). -/
def Func.markConstruct (f : Func I B) (live : Nat) : List I → Nat → List (I × Nat)
  | [], _ => []
  | d :: ds, k =>
    match f.shape d with
    | .scalar => (d, if live.testBit k then 1 else 0) :: f.markConstruct live ds (k + 1)
    | _ => (d, slice live k (f.count d)) :: f.markConstruct live ds (k + f.count d)

/-- The items a work list item leads to (`FindLiveComponents`, `vector_dce.cpp:68-92`). -/
def Func.mark (f : Func I B) (i : I) (live : Nat) : List (I × Nat) :=
  match f.kind i with
  | .extract idx => f.markExtract i idx live
  | .insert idx => f.markInsert i idx live
  | .shuffle idx => f.markShuffle i idx live
  | .construct => f.markConstruct live (f.ops i) 0
  | .lanes => f.markUses i live
  | .plain => f.markUses i allLive

/-- `live_components` and the part of the work list not yet processed. -/
structure State (I : Type) where
  live : I → Option Nat
  work : List (I × Nat)

/-- `AddItemToWorkListIfNeeded` (`vector_dce.cpp:414-428`). -/
def add (s : State I) (it : I × Nat) : State I :=
  match s.live it.1 with
  | none => ⟨fun d => if d = it.1 then some it.2 else s.live d, s.work ++ [it]⟩
  | some b =>
    if b ||| it.2 = b then s
    else ⟨fun d => if d = it.1 then some (b ||| it.2) else s.live d, s.work ++ [it]⟩

/-- All the instructions, in the order of `Function::ForEachInst`. -/
def Func.insts (f : Func I B) : List I := f.blocks.flatMap fun b => f.phis b ++ f.body b

/-- The instructions all of whose operands are taken to be used (`vector_dce.cpp:56-57`). -/
def Func.root (f : Func I B) (i : I) : Bool := !f.tracked i || !f.combinator i

/-- Priming of the work list (`vector_dce.cpp:51-61`). -/
def Func.prime (f : Func I B) : State I :=
  (f.insts.filter f.root).foldl (fun s i => (f.markUses i allLive).foldl add s) ⟨fun _ => none, []⟩

/-- The loop over the work list (`vector_dce.cpp:64-93`); `none` when `fuel` steps do not finish it
(theorem `pass_completes`). -/
def Func.loop (f : Func I B) : Nat → State I → Option (I → Option Nat)
  | 0, s => if s.work = [] then some s.live else none
  | fuel + 1, s =>
    match s.work with
    | [] => some s.live
    | it :: rest => f.loop fuel ((f.mark it.1 it.2).foldl add ⟨s.live, rest⟩)

/-- `FindLiveComponents` (`vector_dce.cpp:41-94`). -/
def Func.findLive (f : Func I B) (fuel : Nat) : Option (I → Option Nat) := f.loop fuel f.prime

/-- State of `RewriteInstructions`: what stands for each id in the code, the insertions whose composite
was replaced by an undefined value, the instructions deleted. -/
structure Rewrite (I : Type) where
  sub : I → Operand I
  cut : List I
  deleted : List I

/-- `IRContext::ReplaceAllUsesWith` (`ir_context.cpp:338-346`): every operand `i` becomes `t`. -/
def replaceAll (sub : I → Operand I) (i : I) (t : Operand I) : I → Operand I :=
  fun d => if sub d = .id i then t else sub d

/-- `RewriteInsertInstruction` (`vector_dce.cpp:366-403`). -/
def Func.rewriteInsert (f : Func I B) (s : Rewrite I) (i : I) (idx : List Nat) (live : Nat) : Rewrite I :=
  match f.ops i with
  | [o, c] =>
    match idx with
    | [] => { s with sub := replaceAll s.sub i (s.sub o) }
    | p :: _ =>
      if live.testBit p = false then { s with sub := replaceAll s.sub i (s.sub c) }
      else if clear live p = 0 then { s with cut := i :: s.cut }
      else s
  | _ => s

/-- The body of the loop of `RewriteInstructions` (`vector_dce.cpp:321-361`). -/
def Func.rewriteOne (f : Func I B) (live : I → Option Nat) (s : Rewrite I) (i : I) : Rewrite I :=
  if f.combinator i then
    match live i with
    | none => s
    | some 0 => { s with sub := replaceAll s.sub i .undef, deleted := i :: s.deleted }
    | some b =>
      match f.kind i with
      | .insert idx => f.rewriteInsert s i idx b
      | _ => s
  else s

/-- `RewriteInstructions` (`vector_dce.cpp:312-364`). -/
def Func.rewrite (f : Func I B) (live : I → Option Nat) : Rewrite I :=
  f.insts.foldl (f.rewriteOne live) ⟨.id, [], []⟩

/-- The code before the pass. -/
def Func.code (f : Func I B) : Code I B :=
  ⟨f.entry, f.phis, f.body, fun i => (f.ops i).map .id, fun i => (f.args i).map fun x => (.id x.1, x.2), f.succs⟩

/-- The code after `RewriteInstructions`: operand 1 of a cut insertion is undefined
(`vector_dce.cpp:397`). -/
def Func.after (f : Func I B) (s : Rewrite I) : Code I B :=
  ⟨f.entry, f.phis, f.body,
   fun i => if i ∈ s.cut then ((f.ops i).map s.sub).set 1 .undef else (f.ops i).map s.sub,
   fun i => (f.args i).map fun x => (s.sub x.1, x.2), f.succs⟩

/-- `VectorDCEFunction` (`vector_dce.cpp:35-39`). -/
def Func.run (f : Func I B) (fuel : Nat) : Option (Code I B) :=
  (f.findLive fuel).map fun live => f.after (f.rewrite live)

end Verif.VectorDce
