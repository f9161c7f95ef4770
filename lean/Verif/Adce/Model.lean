/-!
# Aggressive dead code elimination, one function

Models `AggressiveDCEPass` (`source/opt/aggressive_dead_code_elim_pass.cpp`) on one function of a
shader without variable pointers: the marking of live instructions and the removal of the others,
including the replacement of a dead construct by a branch to its merge block, and the construct
analysis it uses (`source/opt/struct_cfg_analysis.cpp`).

Not modelled: types, decorations, names, line and debug instructions; the removal of module-scope
values (`ProcessGlobalValues`) and of functions; `CFGCleanup` (which removes the blocks that can no
longer be reached). The structured order of the blocks (`CFG::ComputeStructuredOrder`) is given with
the function.
-/
namespace Verif.Adce

/-- Ids of instructions and labels; an instruction without a result id is named in the same way
(`unique_id`). -/
abbrev Id := Nat

/-- The instructions of a block that are neither merge instructions nor terminators. -/
inductive Kind where
  /-- `OpPhi`: pairs of a value and the label it comes from -/
  | phi (args : List (Id × Id))
  /-- `OpAccessChain`, `OpInBoundsAccessChain`, `OpUntypedAccessChainKHR`, `OpCopyObject` of a pointer -/
  | chain (base : Id) (idx : List Id)
  | load (p : Id)
  | store (p v : Id)
  /-- `OpCopyMemory`, `OpCopyMemorySized` -/
  | copy (t s : Id)
  /-- anything `IsOpcodeSafeToDelete` accepts -/
  | pure (ops : List Id)
  /-- anything it does not accept, other than a call: operands, and those of them that are addresses
  the instruction loads from (`IsAtomicWithLoad`, `GetLoadedVariableFromNonFunctionCalls`) -/
  | effect (ops reads : List Id)
  | call (ops : List Id)
  deriving DecidableEq

structure Inst where
  id : Id
  kind : Kind
  deriving DecidableEq

/-- `OpSelectionMerge`, `OpLoopMerge`. -/
inductive Merge where
  | sel (m : Id)
  | loop (m c : Id)
  deriving DecidableEq

/-- Terminators. -/
inductive Term where
  | br (t : Id)
  /-- `OpBranchConditional`, `OpSwitch` -/
  | choice (c : Id) (ts : List Id)
  /-- `OpReturn`, `OpReturnValue`, `OpKill`, `OpTerminateInvocation`, … -/
  | exit (ops : List Id)
  /-- `OpReturnValue` of an undefined value -/
  | exitUndef
  | unreachable
  deriving DecidableEq

structure Block where
  id : Id
  insts : List Inst
  merge : Option Merge
  term : Term
  deriving DecidableEq

/-- Storage classes, as far as they matter here. -/
inductive Storage where
  | function
  /-- Private, Workgroup -/
  | shared
  | other
  deriving DecidableEq

structure Func where
  /-- blocks in structured order; the first is the entry block -/
  order : List Block
  /-- variables of the function and of the module. An `OpVariable` of the function stands here and
  not in the entry block. -/
  vars : List (Id × Storage)
  /-- parameters, and whether they are pointers -/
  params : List (Id × Bool)
  /-- other ids from outside the function -/
  consts : List Id
  /-- named by an `OpEntryPoint` (`IsEntryPoint`, aggressive_dead_code_elim_pass.cpp:1254-1263) -/
  isEntry : Bool
  /-- returns nothing -/
  isVoid : Bool

/-- The merge block named by a merge instruction. -/
def Merge.block : Merge → Id
  | .sel m => m
  | .loop m _ => m

/-- `BasicBlock::IsLoopHeader`. -/
def Block.isLoop (b : Block) : Bool :=
  match b.merge with
  | some (.loop _ _) => true
  | _ => false

/-- Labels named by a terminator. -/
def Term.targets : Term → List Id
  | .br t => [t]
  | .choice _ ts => ts
  | _ => []

/-- Values named by a terminator. -/
def Term.ops : Term → List Id
  | .choice c _ => [c]
  | .exit ops => ops
  | _ => []

/-- The terminators that are neither branches (`spvOpcodeIsBranch`, opcode.cpp:334-343) nor
`OpUnreachable`. -/
def Term.isExit : Term → Bool
  | .exit _ => true
  | .exitUndef => true
  | _ => false

/-- Values named by an instruction. -/
def Kind.ops : Kind → List Id
  | .phi args => args.map (·.1)
  | .chain b idx => b :: idx
  | .load p => [p]
  | .store p v => [p, v]
  | .copy t s => [t, s]
  | .pure ops => ops
  | .effect ops _ => ops
  | .call ops => ops

/-- Labels named by an instruction. -/
def Kind.labels : Kind → List Id
  | .phi args => args.map (·.2)
  | _ => []

def Func.insts (F : Func) : List Inst := F.order.flatMap Block.insts

/-- The instruction with this id. -/
def Func.find (F : Func) (i : Id) : Option Inst := F.insts.find? (·.id == i)

/-- The block with this label. -/
def Func.block (F : Func) (b : Id) : Option Block := F.order.find? (·.id == b)

/-- The block an instruction stands in (`get_instr_block`). -/
def Func.blockOf (F : Func) (i : Id) : Option Block :=
  F.order.find? (fun b => b.insts.any (·.id == i))

/-! ## Constructs -/

/-- `StructuredCFGAnalysis::AddBlocksInFunction` (struct_cfg_analysis.cpp:38-109), keeping only
`containing_construct`: the stack holds the headers of the open constructs with their merge blocks. -/
def analyse : List Block → List (Id × Id) → List (Id × Option Id)
  | [], _ => []
  | b :: bs, st =>
    let st := match st with
      | (h, m) :: st' => if b.id = m then st' else (h, m) :: st'
      | [] => []
    (b.id, st.head?.map (·.1)) ::
      analyse bs (match b.merge with
        | some g => (b.id, g.block) :: st
        | none => st)

/-- `StructuredCFGAnalysis::ContainingConstruct` (struct_cfg_analysis.h:38-44); 0 is `none`. -/
def Func.up (F : Func) (b : Id) : Option Id := ((analyse F.order []).lookup b).join

/-- `BlockIsInConstruct` (aggressive_dead_code_elim_pass.cpp:1229-1242). The number bounds the walk. -/
def Func.inConstruct (F : Func) (h : Id) : Nat → Id → Bool
  | 0, _ => false
  | n + 1, b => b == h || match F.up b with
    | some c => F.inConstruct h n c
    | none => false

/-- `GetHeaderBlock` (aggressive_dead_code_elim_pass.cpp:1184-1198). -/
def Func.headerOf (F : Func) (b : Block) : Option Block :=
  if b.isLoop then some b else (F.up b.id).bind F.block

/-- `GetBranchForNextHeader` (aggressive_dead_code_elim_pass.cpp:1208-1219): the header whose branch
it returns. For a loop header this starts from the block that heads the containing construct, and
then asks for the header of that block. -/
def Func.nextHeader (F : Func) (b : Block) : Option Block :=
  if b.isLoop then ((F.up b.id).bind F.block).bind F.headerOf else F.headerOf b

/-! ## Memory -/

/-- `HasCall` (aggressive_dead_code_elim_pass.cpp:1265-1269). -/
def Func.hasCall (F : Func) : Bool :=
  F.insts.any (fun i => match i.kind with | .call _ => true | _ => false)

/-- `IsLocalVar` (aggressive_dead_code_elim_pass.cpp:105-120). -/
def Func.isLocal (F : Func) (v : Id) : Bool :=
  match F.vars.lookup v with
  | some .function => true
  | some .shared => F.isEntry && !F.hasCall
  | _ => false

/-- The variable `GetPtr` finds (mem_pass.cpp:102-141, with `GetBaseAddress`, instruction.cpp:254-277):
follow the bases of access chains. The number bounds the walk. -/
def Func.root (F : Func) : Nat → Id → Option Id
  | 0, _ => none
  | n + 1, p =>
    if (F.vars.lookup p).isSome then some p
    else match F.find p with
      | some ⟨_, .chain b _⟩ => F.root n b
      | _ => none

/-- More steps than any chain of addresses of the function has. -/
def Func.depth (F : Func) : Nat := F.insts.length + 1

/-- `GetVariableId` (aggressive_dead_code_elim_pass.cpp:565-571). -/
def Func.varOf (F : Func) (p : Id) : Option Id := F.root F.depth p

/-- The variable of an address is local: `IsLocalVar` of what `GetPtr` finds; 0 is not local. -/
def Func.isLocalAddr (F : Func) (p : Id) : Bool :=
  match F.varOf p with
  | some v => F.isLocal v
  | none => false

/-- `IsPtr` (mem_pass.cpp:79-100), of an id. -/
def Func.isPtr (F : Func) (p : Id) : Bool :=
  (F.vars.lookup p).isSome || F.params.lookup p == some true ||
    match F.find p with
    | some ⟨_, .chain _ _⟩ => true
    | _ => false

/-- `AddStores` (aggressive_dead_code_elim_pass.cpp:122-155): instructions that may write through an
address made from `p`. The number bounds the recursion. -/
def Func.stores (F : Func) : Nat → Id → List Id
  | 0, _ => []
  | n + 1, p => (F.insts.filter (fun i => i.kind.ops.contains p)).flatMap (fun u =>
    match u.kind with
    | .chain _ _ => F.stores n u.id
    | .load _ => []
    | .copy t _ => if t = p then [u.id] else []
    | .store t _ => if t = p then [u.id] else []
    | _ => [u.id])

/-- `GetLoadedVariables` (aggressive_dead_code_elim_pass.cpp:488-563). -/
def Func.loaded (F : Func) : Kind → List Id
  | .load p => (F.varOf p).toList
  | .copy _ s => (F.varOf s).toList
  | .effect _ reads => reads.filterMap F.varOf
  | .call ops => (ops.filter F.isPtr).filterMap F.varOf
  | _ => []

/-- `ProcessLoad` (aggressive_dead_code_elim_pass.cpp:200-209) for each loaded variable. The cache
`live_local_vars_` only avoids adding the same stores twice. -/
def Func.loadDeps (F : Func) (k : Kind) : List Id :=
  ((F.loaded k).filter F.isLocal).flatMap (F.stores F.depth)

/-! ## Marking -/

/-- What can be live: labels, merge instructions and terminators of blocks, and the other
instructions, inside and outside the function. -/
inductive Item where
  | label (b : Id)
  | merge (b : Id)
  | term (b : Id)
  | inst (i : Id)
  deriving DecidableEq

/-- Everything there is. -/
def Func.items (F : Func) : List Item :=
  F.order.flatMap (fun b => [.label b.id, .merge b.id, .term b.id] ++ b.insts.map (fun i => .inst i.id)) ++
  (F.vars.map (fun v => .inst v.1) ++ F.params.map (fun v => .inst v.1) ++ F.consts.map .inst)

/-- The breaks found by `AddBreaksAndContinuesToWorklist` (aggressive_dead_code_elim_pass.cpp:220-239)
for the construct headed by `h`. -/
def Func.breaks (F : Func) (h : Id) (g : Merge) : List Item :=
  (F.order.filter (fun c => c.term.targets.contains g.block &&
      F.inConstruct h (F.order.length + 1) c.id)).flatMap (fun c =>
    .term c.id :: if c.merge.isSome then [.merge c.id] else [])

/-- The continues found by `AddBreaksAndContinuesToWorklist`
(aggressive_dead_code_elim_pass.cpp:241-275). -/
def Func.continues (F : Func) : Merge → List Item
  | .sel _ => []
  | .loop _ k =>
    (F.order.filter (fun c => c.term.targets.contains k)).flatMap (fun c =>
      match c.term with
      | .choice _ _ =>
        match c.merge with
        | some (.sel m) => if m = k then [] else [.merge c.id, .term c.id]
        | _ => [.term c.id]
      | .br _ =>
        match F.headerOf c with
        | none => []
        | some h =>
          match h.merge with
          | some (.sel m) => if m = k then [] else [.term c.id]
          | _ => []
      | _ => [])

/-- `MarkBlockAsLive` (aggressive_dead_code_elim_pass.cpp:573-624) for an instruction of the block `b`:
its label, or its merge instruction, or another. -/
def Func.blockDeps (F : Func) (b : Block) (isLabel isMerge : Bool) : List Item :=
  .label b.id ::
  ((match b.merge with
    | none => [.term b.id]
    | some g => [.label g.block]) ++
  (if !isLabel && b.isLoop then [.term b.id, .merge b.id] else []) ++
  (match F.nextHeader b with
    | some h => [.term h.id, .merge h.id]
    | none => []) ++
  (if isMerge then (match b.merge with
    | some g => F.breaks b.id g ++ F.continues g
    | none => []) else []))

/-- Labels named by a merge instruction. -/
def Merge.labels : Merge → List Id
  | .sel m => [m]
  | .loop m c => [m, c]

/-- What one turn of `ProcessWorkList` adds (aggressive_dead_code_elim_pass.cpp:424-434): operands
(`AddOperandsToWorkList`, 626-634), the block, the stores to the loaded variables. -/
def Func.deps (F : Func) : Item → List Item
  | .label b => match F.block b with
    | some B => F.blockDeps B true false
    | none => []
  | .merge b => match F.block b with
    | some B => (match B.merge with
      | some g => g.labels.map .label
      | none => []) ++ F.blockDeps B false true
    | none => []
  | .term b => match F.block b with
    | some B => B.term.ops.map .inst ++ B.term.targets.map .label ++ F.blockDeps B false false
    | none => []
  | .inst i => match F.find i with
    | some u => u.kind.ops.map .inst ++ u.kind.labels.map .label ++
      (match F.blockOf i with
        | some B => F.blockDeps B false false
        | none => []) ++
      (F.loadDeps u.kind).map .inst
    | none => []

/-- `InitializeWorkList` (aggressive_dead_code_elim_pass.cpp:636-679) of one instruction. -/
def Func.isRoot (F : Func) : Kind → Bool
  | .store p _ => !F.isLocalAddr p
  | .copy t _ => !F.isLocalAddr t
  | .effect _ _ => true
  | .call _ => true
  | _ => false

/-- `InitializeWorkList` (aggressive_dead_code_elim_pass.cpp:636-679): parameters, the first block,
instructions with an effect. -/
def Func.roots (F : Func) : List Item :=
  F.params.map (fun p => .inst p.1) ++
  (match F.order.head? with
    | some b => F.blockDeps b true false
    | none => []) ++
  F.order.flatMap (fun b =>
    (b.insts.filter (fun i => F.isRoot i.kind)).map (fun i => .inst i.id) ++
    if b.term.isExit then [.term b.id] else [])

/-- `AddToWorklist` (aggressive_dead_code_elim_pass.h:94-98) of several instructions: those not yet
live. -/
def fresh (all live : List Item) (xs : List Item) : List Item :=
  (xs.filter (fun y => all.contains y && !live.contains y)).eraseDups

theorem fresh_mem {U L xs : List Item} {y : Item} :
    y ∈ fresh U L xs ↔ y ∈ xs ∧ y ∈ U ∧ y ∉ L := by
  simp [fresh]

theorem filter_length_lt {U L new : List Item} {y : Item} (hy : y ∈ U) (hl : y ∉ L) (hn : y ∈ new) :
    (U.filter (fun x => !(L ++ new).contains x)).length < (U.filter (fun x => !L.contains x)).length := by
  induction U with
  | nil => cases hy
  | cons u U ih =>
    have hle : ∀ W : List Item, (W.filter (fun x => !(L ++ new).contains x)).length ≤
        (W.filter (fun x => !L.contains x)).length := by
      intro W
      induction W with
      | nil => simp
      | cons w W ih =>
        rw [List.filter_cons, List.filter_cons]
        by_cases h1 : w ∈ L <;> by_cases h2 : w ∈ new <;> simp [h1, h2] at ih ⊢ <;> omega
    rw [List.filter_cons, List.filter_cons]
    rcases List.mem_cons.1 hy with rfl | hy
    · have := hle U
      simp [hl, hn] at this ⊢
      omega
    · have := ih hy
      by_cases h1 : u ∈ L <;> by_cases h2 : u ∈ new <;> simp [h1, h2] at this ⊢ <;> omega

/-- `ProcessWorkList` (aggressive_dead_code_elim_pass.cpp:424-434): the queue and the live
instructions. -/
def process (deps : Item → List Item) (U : List Item) (work live : List Item) : List Item :=
  match work with
  | [] => live
  | x :: w => process deps U (w ++ fresh U live (deps x)) (live ++ fresh U live (deps x))
termination_by ((U.filter (fun x => !live.contains x)).length, work.length)
decreasing_by
  cases hf : fresh U live (deps x) with
  | nil => simp; exact Prod.Lex.right _ (by simp)
  | cons y ys =>
    have hy : y ∈ fresh U live (deps x) := by simp [hf]
    have hm := fresh_mem.1 hy
    exact Prod.Lex.left _ _ (filter_length_lt hm.2.1 hm.2.2 (by simp))

/-- The live instructions. -/
def Func.live (F : Func) : List Item :=
  process F.deps F.items (fresh F.items [] F.roots) (fresh F.items [] F.roots)

/-! ## Removal -/

/-- What `KillDeadInstructions` leaves of a block whose construct is live, or that heads none
(aggressive_dead_code_elim_pass.cpp:369-379, 412-419). -/
def Block.kept (live : List Item) (b : Block) : Block :=
  { b with
    insts := b.insts.filter (fun i => live.contains (.inst i.id))
    term := if live.contains (.term b.id) then b.term else .unreachable }

/-- What it leaves of a block whose construct is dead
(aggressive_dead_code_elim_pass.cpp:369-379, 383-384). -/
def Block.folded (live : List Item) (b : Block) (m : Id) : Block :=
  { b with
    insts := b.insts.filter (fun i => live.contains (.inst i.id))
    merge := none
    term := .br m }

/-- The merge block of a dead construct, if it ends in `OpUnreachable`
(aggressive_dead_code_elim_pass.cpp:388-410). -/
def Block.returning (isVoid : Bool) (b : Block) : Block :=
  match b.term with
  | .unreachable => { b with term := if isVoid then .exit [] else .exitUndef }
  | _ => b

/-- The merge block of the construct the block heads, if that is dead. -/
def Block.dead (live : List Item) (b : Block) : Option Id :=
  match b.merge with
  | some g => if live.contains (.merge b.id) then none else some g.block
  | none => none

/-- The loop of `KillDeadInstructions` (aggressive_dead_code_elim_pass.cpp:364-422). While a merge
block is looked for, blocks are passed over unchanged. `none`: the order ends before that block. The
terminator changed at 389-410 is set live there, so it is kept. -/
def kill (live : List Item) (isVoid : Bool) : Option Id → List Block → Option (List Block)
  | none, [] => some []
  | some _, [] => none
  | none, b :: bs =>
    match b.dead live with
    | some m => (kill live isVoid (some m) bs).map (b.folded live m :: ·)
    | none => (kill live isVoid none bs).map (b.kept live :: ·)
  | some m, b :: bs =>
    if b.id = m then
      let b' := b.returning isVoid
      let live' := if b'.term = b.term then live else .term b.id :: live
      match b.dead live with
      | some m => (kill live isVoid (some m) bs).map (b'.folded live m :: ·)
      | none => (kill live isVoid none bs).map (b'.kept live' :: ·)
    else (kill live isVoid (some m) bs).map (b :: ·)

/-- `AggressiveDCE` (aggressive_dead_code_elim_pass.cpp:278-289). -/
def Func.run (F : Func) : Option Func :=
  (kill F.live F.isVoid none F.order).map (fun o => { F with order := o })

end Verif.Adce
