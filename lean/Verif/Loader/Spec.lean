import Verif.Loader.Model

/-!
# What a module says, instruction by instruction

Independent of the loader: which source line and which debug scope apply to each instruction of
an instruction stream, and where in the logical layout of a module each instruction belongs.
-/
namespace Verif.Loader.Spec
open Verif.StringLit (Word)

/-- A source position: that of an `OpLine` (`false`) or of a `DebugLine` (`true`) with the given
operand words, after its first word and its type.  The result id of a `DebugLine` is not part of
the position. -/
abbrev Key := Bool × List Word × List Word

/-- The position a line instruction gives. -/
def key (x : PInst) : Key := (x.isDebugLineInst, x.words.take (if x.isDebugLineInst then 2 else 1), x.inWords)

/-- An instruction with the line and the scope that apply to it. -/
structure Info where
  inst : PInst
  line : Option Key
  scope : Scope
  deriving DecidableEq, Repr

/-- What is in effect at a point of the stream. -/
structure Eff where
  line : Option Key
  scope : Scope
  deriving DecidableEq, Repr

/-- Nothing is. -/
def Eff.none : Eff := ⟨.none, noScope⟩

/-- A `DebugScope` with lexical scope 0 is none. -/
def norm (s : Scope) : Scope := if s.lex = 0 then noScope else s

/-- The scope a `DebugScope` names. -/
def scopeOf (x : PInst) : Scope := norm ⟨x.words.getD 5 0, x.words.getD 6 0⟩

/-- Lines and scopes apply to the instructions that follow, up to the end of the block; scopes
also end at a merge instruction (the code treats them so on loading; see Props.lean). -/
def info : Eff → List PInst → List Info
  | _, [] => []
  | e, x :: xs =>
    if x.isLine then info { e with line := some (key x) } xs
    else if x.isNoLine then info { e with line := .none } xs
    else if x.isScope then info { e with scope := scopeOf x } xs
    else if x.isNoScope then info { e with scope := noScope } xs
    else
      let e := if x.op = .merge then { e with scope := noScope } else e
      ⟨x, e.line, e.scope⟩ :: info (if x.op = .terminator then Eff.none else e) xs

/-- Where we are in the module: functions and graphs begun, and whether a function, a block, a
graph is open. -/
structure Ctx where
  fns : Nat
  graphs : Nat
  inFn : Bool
  inBlk : Bool
  inGraph : Bool
  deriving DecidableEq, Repr

/-- At the beginning of the module. -/
def Ctx.start : Ctx := ⟨0, 0, false, false, false⟩

/-- After an instruction. -/
def Ctx.after (c : Ctx) (x : PInst) : Ctx :=
  match x.op with
  | .function => { c with fns := c.fns + 1, inFn := true }
  | .functionEnd => { c with inFn := false }
  | .label => { c with inBlk := true }
  | .terminator => { c with inBlk := false }
  | .graph => { c with graphs := c.graphs + 1, inGraph := true }
  | .graphEnd => { c with inGraph := false }
  | _ => c

/-- Each instruction with the context it occurs in. -/
def contexts : Ctx → List PInst → List (Ctx × PInst)
  | _, [] => []
  | c, x :: xs => (c, x) :: contexts (c.after x) xs

/-- The context at the end of the module. -/
def finalCtx : Ctx → List PInst → Ctx
  | c, [] => c
  | c, x :: xs => finalCtx (c.after x) xs

/-- A place in the layout, compared lexicographically. -/
abbrev Rank := Nat × Nat

/-- `a` comes before or is the same place as `b`. -/
def Rank.le (a b : Rank) : Bool := decide (a.1 < b.1) || (decide (a.1 = b.1) && decide (a.2 ≤ b.2))

/-- The section of an instruction outside functions and graphs: the logical layout of a module
(capabilities, extensions, imports, memory model, sampler addressing mode, entry points,
execution modes, three groups of debug instructions, annotations, types and values, debug info,
functions, graph entry points, graphs).  Non-semantic instructions go with the last graph or
function. -/
def section_ (c : Ctx) (op : Op) : Rank :=
  match op with
  | .capability => (0, 0)
  | .extension => (1, 0)
  | .extInstImport => (2, 0)
  | .memoryModel => (3, 0)
  | .samplerMode => (4, 0)
  | .entryPoint => (5, 0)
  | .executionMode => (6, 0)
  | .debug1 => (7, 0)
  | .debug2 => (8, 0)
  | .debug3 => (9, 0)
  | .annotation _ => (10, 0)
  | .type => (11, 0)
  | .globalValue => (11, 0)
  | .variable => (11, 0)
  | .graphEntryPoint => (14, 0)
  | .ext _ set _ =>
    if set.isDebug then (12, 0)
    else if c.graphs ≠ 0 then (15, 5 * (c.graphs - 1) + 4)
    else if c.fns ≠ 0 then (13, 4 * (c.fns - 1) + 3)
    else (11, 0)
  | _ => (11, 0)

/-- The place of an instruction.  The `k`-th function takes the places `4k` (its `OpFunction`),
`4k+1` (its parameters), `4k+2` (debug instructions before the first block) and `4k+3` (the
blocks and the rest); the `k`-th graph the places `5k` (its `OpGraphARM`), `5k+1` (inputs),
`5k+2` (body), `5k+3` (outputs) and `5k+4` (the rest). -/
def place (c : Ctx) (x : PInst) : Rank :=
  match x.op with
  | .function => (13, 4 * c.fns)
  | .functionEnd => (13, 4 * (c.fns - 1) + 3)
  | .label => (13, 4 * (c.fns - 1) + 3)
  | .terminator => (13, 4 * (c.fns - 1) + 3)
  | .graph => (15, 5 * c.graphs)
  | .graphEnd => (15, 5 * (c.graphs - 1) + 4)
  | .graphConstant => (11, 0)
  | op =>
    if c.inGraph then
      match op with
      | .graphInput => (15, 5 * (c.graphs - 1) + 1)
      | .graphSetOutput => (15, 5 * (c.graphs - 1) + 3)
      | _ => (15, 5 * (c.graphs - 1) + 2)
    else if c.inFn then
      if c.inBlk then (13, 4 * (c.fns - 1) + 3)
      else match op with
        | .functionParameter => (13, 4 * (c.fns - 1) + 1)
        | _ => (13, 4 * (c.fns - 1) + 2)
    else section_ c op

/-- Is this an instruction of the module proper, or one that only carries line or scope
information? -/
def carriesDebug (x : PInst) : Bool := x.isLineInst || x.isScope || x.isNoScope

/-- The places of the instructions proper. -/
def places (c : Ctx) (xs : List PInst) : List Rank :=
  ((contexts c xs).filter fun p => !carriesDebug p.2).map fun p => place p.1 p.2

/-- Insert after everything whose place is not later. -/
def insert (a : Rank × Info) : List (Rank × Info) → List (Rank × Info)
  | [] => [a]
  | b :: l => if b.1.le a.1 then b :: insert a l else a :: b :: l

/-- Stable sorting by place. -/
def sort (l : List (Rank × Info)) : List (Rank × Info) := l.foldl (fun acc a => insert a acc) []

/-- The instructions of the module with their lines and scopes, in the order of the logical
layout; instructions of the same place keep their order. -/
def inLayout (xs : List PInst) : List Info :=
  (sort ((places Ctx.start xs).zip (info Eff.none xs))).map (·.2)

/-- The module is already in the order of the logical layout. -/
def InOrder (xs : List PInst) : Prop := (places Ctx.start xs).Pairwise (fun a b => a.le b = true)

/-- A merge instruction is directly followed by the terminator of its block. -/
def mergesOk : List PInst → Prop
  | [] => True
  | x :: xs => (x.op = .merge → ∃ y ys, xs = y :: ys ∧ y.op = .terminator) ∧ mergesOk xs

/-- What the theorems about loading assume of the instruction stream. -/
structure Regular (xs : List PInst) : Prop where
  /-- Scopes are set inside blocks only. -/
  scopes : ∀ p ∈ contexts Ctx.start xs, p.2.isScope ∨ p.2.isNoScope → p.1.inBlk
  /-- Debug instructions of the shader set are not between the header and the first block, or
  between blocks. -/
  debug : ∀ p ∈ contexts Ctx.start xs, ∀ f k, p.2.op = .ext f .shaderDebug k →
    carriesDebug p.2 = false → p.1.inFn → p.1.inBlk
  /-- Functions and graphs are not nested. -/
  graphs : ∀ p ∈ contexts Ctx.start xs,
    p.2.op = .graph ∨ p.2.op = .graphEnd ∨ p.2.op = .graphConstant → p.1.inFn = false
  functions : ∀ p ∈ contexts Ctx.start xs, p.2.op = .function → p.1.inGraph = false
  /-- At most one memory model, at most one sampler addressing mode. -/
  memoryModel : (xs.filter fun x => decide (x.op = .memoryModel)).length ≤ 1
  sampler : (xs.filter fun x => decide (x.op = .samplerMode)).length ≤ 1
  merges : mergesOk xs
  /-- All functions and graphs are ended. -/
  complete : (finalCtx Ctx.start xs).inFn = false ∧ (finalCtx Ctx.start xs).inGraph = false

/-- What the theorems about emission assume in addition. -/
structure Emittable (cl100 : Bool) (xs : List PInst) : Prop where
  /-- The positions of two line instructions are the same if the operands of the one begin with
  those of the other.  (All `OpLine`s have three operands, and all `DebugLine`s have seven.) -/
  lines : ∀ x ∈ xs, ∀ y ∈ xs, x.isLine → y.isLine → x.inWords <+: y.inWords → key x = key y
  /-- There are no line instructions if there are graphs. -/
  graphs : (∃ x ∈ xs, x.op = .graph) → ∀ x ∈ xs, x.isLineInst = false
  /-- If there are scopes, there is another debug instruction outside functions. -/
  debug : (∃ x ∈ xs, x.isScope) → ∃ p ∈ contexts Ctx.start xs, p.1.inFn = false ∧ p.1.inGraph = false ∧
    carriesDebug p.2 = false ∧ ∃ f set k, p.2.op = .ext f set k ∧ set.isDebug
  /-- Unless the OpenCL debug info set is imported: phis and variables have no scope, and there
  are no `OpLine`s and no `OpNoLine`s if there are scopes. -/
  opens : cl100 = true ∨ (∀ x ∈ xs, x.isScope = false) ∨
    ((∀ x ∈ xs, x.isOpLineInst = false) ∧
      ∀ a ∈ info Eff.none xs, a.inst.op = .variable ∨ a.inst.op = .phi → a.scope = noScope)

/-- What emission may leave out: `OpNop`s if asked to (`skipNop`), and if asked to (`filter`) a
decoration whose words have been written before (`seen`). -/
def written (skipNop filter : Bool) : List (List Word) → List Info → List Info
  | _, [] => []
  | seen, a :: l =>
    if skipNop = true ∧ a.inst.op = .nop then written skipNop filter seen l
    else if filter = true ∧ a.inst.op = .annotation true then
      if a.inst.words ∈ seen then written skipNop filter seen l
      else a :: written skipNop filter (a.inst.words :: seen) l
    else a :: written skipNop filter seen l

end Verif.Loader.Spec
