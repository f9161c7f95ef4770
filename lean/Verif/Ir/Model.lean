import Verif.Binary.Operand
import Verif.StringLit.Model

/-!
# The optimizer's in-memory module  (source/opt/{instruction,basic_block,function,graph,module}.h)

Instructions are values; the intrusive lists of source/util/ilist.h that hold them are
plain lists here (their own model is `Verif.IList`).
-/
namespace Verif.Ir
open Verif.StringLit (Word)
open Verif.Binary (OT)

/-- `Operand`, source/opt/instruction.h:72-113. -/
structure Operand where
  type : OT
  words : List Word
  deriving DecidableEq, Repr

/-- `Instruction` without its attached line instructions, source/opt/instruction.h:618-635.
`scope` and `inlinedAt` are the two fields of `dbg_scope_` (0 = none, instruction.h:39-40).
`has_type_id_` and `has_result_id_` are determined by the operands and not stored. -/
structure Core where
  opcode : Nat
  operands : List Operand
  scope : Word
  inlinedAt : Word
  deriving DecidableEq, Repr

/-- `Instruction` with `dbg_line_insts_`, source/opt/instruction.h:630. Line instructions
themselves carry no line instructions. -/
structure Inst where
  core : Core
  lines : List Core
  deriving DecidableEq, Repr

/-- `BasicBlock`, source/opt/basic_block.h:36-255. -/
structure Block where
  label : Inst
  insts : List Inst
  deriving DecidableEq, Repr

/-- `Function`, source/opt/function.h:37-230; `endInst` is null when `OpFunctionEnd` is missing. -/
structure Function where
  defInst : Inst
  params : List Inst
  debugHeader : List Inst
  blocks : List Block
  endInst : Option Inst
  nonSemantic : List Inst
  deriving DecidableEq, Repr

/-- `Graph`, source/opt/graph.h. -/
structure Graph where
  defInst : Inst
  inputs : List Inst
  insts : List Inst
  outputs : List Inst
  endInst : Inst
  nonSemantic : List Inst
  deriving DecidableEq, Repr

/-- `Module`, source/opt/module.h:315-345; only the bound of the header. -/
structure Module where
  bound : Word
  capabilities : List Inst
  extensions : List Inst
  imports : List Inst
  memoryModel : Option Inst
  samplerMode : Option Inst
  entryPoints : List Inst
  graphEntryPoints : List Inst
  executionModes : List Inst
  debugs1 : List Inst
  debugs2 : List Inst
  debugs3 : List Inst
  debugInfo : List Inst
  annotations : List Inst
  typesValues : List Inst
  functions : List Function
  graphs : List Graph
  trailing : List Core
  deriving DecidableEq, Repr

/-! ## Traversals -/

/-- `BasicBlock::WhileEachInst`, source/opt/basic_block.h:258-274. -/
def Block.visit (b : Block) : List Inst := b.label :: b.insts

/-- `Function::WhileEachInst`, source/opt/function.cpp:82-127, non-semantic instructions
included. -/
def Function.visit (f : Function) : List Inst :=
  f.defInst :: (f.params ++ (f.debugHeader ++ (f.blocks.flatMap Block.visit ++
    (f.endInst.toList ++ f.nonSemantic))))

/-- `Graph::ForEachInst`, source/opt/graph.cpp:50-77. The callback is not run on the line
instructions here. -/
def Graph.visit (g : Graph) : List Inst :=
  g.defInst :: (g.inputs ++ (g.insts ++ (g.outputs ++ (g.endInst :: g.nonSemantic))))

/-- Order of the mutable `Module::ForEachInst`, source/opt/module.cpp:88-115. It does not
reach `trailing_dbg_line_info_`. -/
def Module.visit (m : Module) : List Inst :=
  m.capabilities ++ (m.extensions ++ (m.imports ++ (m.memoryModel.toList ++ (m.samplerMode.toList ++
  (m.entryPoints ++ (m.graphEntryPoints ++ (m.executionModes ++ (m.debugs1 ++ (m.debugs2 ++
  (m.debugs3 ++ (m.debugInfo ++ (m.annotations ++ (m.typesValues ++
  (m.functions.flatMap Function.visit ++ m.graphs.flatMap Graph.visit))))))))))))))

/-- Order of the const `Module::ForEachInst`, source/opt/module.cpp:117-152, used for
output, without the line instructions. -/
def Module.visitConst (m : Module) : List Inst :=
  m.capabilities ++ (m.extensions ++ (m.imports ++ (m.memoryModel.toList ++ (m.samplerMode.toList ++
  (m.entryPoints ++ (m.executionModes ++ (m.debugs1 ++ (m.debugs2 ++
  (m.debugs3 ++ (m.annotations ++ (m.typesValues ++ (m.debugInfo ++
  (m.functions.flatMap Function.visit ++ (m.graphEntryPoints ++ m.graphs.flatMap Graph.visit))))))))))))))

/-! ## Rewriting in place: a callback with state over the mutable traversal -/

/-- Run a stateful rewriting callback over a list. -/
def mapAcc {σ α : Type} (f : σ → α → σ × α) : σ → List α → σ × List α
  | s, [] => (s, [])
  | s, a :: l =>
    let r := f s a
    let t := mapAcc f r.1 l
    (t.1, r.2 :: t.2)

def mapAccOpt {σ α : Type} (f : σ → α → σ × α) : σ → Option α → σ × Option α
  | s, none => (s, none)
  | s, some a => let r := f s a; (r.1, some r.2)

/-- See `Block.visit`. -/
def Block.mapAcc {σ : Type} (f : σ → Inst → σ × Inst) (s : σ) (b : Block) : σ × Block :=
  let l := f s b.label
  let i := Ir.mapAcc f l.1 b.insts
  (i.1, ⟨l.2, i.2⟩)

/-- See `Function.visit`. -/
def Function.mapAcc {σ : Type} (f : σ → Inst → σ × Inst) (s : σ) (x : Function) : σ × Function :=
  let d := f s x.defInst
  let p := Ir.mapAcc f d.1 x.params
  let h := Ir.mapAcc f p.1 x.debugHeader
  let b := Ir.mapAcc (Block.mapAcc f) h.1 x.blocks
  let e := mapAccOpt f b.1 x.endInst
  let n := Ir.mapAcc f e.1 x.nonSemantic
  (n.1, ⟨d.2, p.2, h.2, b.2, e.2, n.2⟩)

/-- See `Graph.visit`. -/
def Graph.mapAcc {σ : Type} (f : σ → Inst → σ × Inst) (s : σ) (x : Graph) : σ × Graph :=
  let d := f s x.defInst
  let i := Ir.mapAcc f d.1 x.inputs
  let b := Ir.mapAcc f i.1 x.insts
  let o := Ir.mapAcc f b.1 x.outputs
  let e := f o.1 x.endInst
  let n := Ir.mapAcc f e.1 x.nonSemantic
  (n.1, ⟨d.2, i.2, b.2, o.2, e.2, n.2⟩)

/-- The mutable `Module::ForEachInst`, source/opt/module.cpp:88-115, with a callback `f` for
instructions with their line instructions, and `g` for those of graphs. -/
def Module.mapAcc {σ : Type} (f g : σ → Inst → σ × Inst) (s : σ) (m : Module) : σ × Module :=
  let r1 := Ir.mapAcc f s m.capabilities
  let r2 := Ir.mapAcc f r1.1 m.extensions
  let r3 := Ir.mapAcc f r2.1 m.imports
  let r4 := mapAccOpt f r3.1 m.memoryModel
  let r5 := mapAccOpt f r4.1 m.samplerMode
  let r6 := Ir.mapAcc f r5.1 m.entryPoints
  let r7 := Ir.mapAcc f r6.1 m.graphEntryPoints
  let r8 := Ir.mapAcc f r7.1 m.executionModes
  let r9 := Ir.mapAcc f r8.1 m.debugs1
  let r10 := Ir.mapAcc f r9.1 m.debugs2
  let r11 := Ir.mapAcc f r10.1 m.debugs3
  let r12 := Ir.mapAcc f r11.1 m.debugInfo
  let r13 := Ir.mapAcc f r12.1 m.annotations
  let r14 := Ir.mapAcc f r13.1 m.typesValues
  let r15 := Ir.mapAcc (Function.mapAcc f) r14.1 m.functions
  let r16 := Ir.mapAcc (Graph.mapAcc g) r15.1 m.graphs
  (r16.1, ⟨m.bound, r1.2, r2.2, r3.2, r4.2, r5.2, r6.2, r7.2, r8.2, r9.2, r10.2, r11.2, r12.2, r13.2,
    r14.2, r15.2, r16.2, m.trailing⟩)

/-! ## The same rewriting with a pure function -/

def Block.map (f : Inst → Inst) (b : Block) : Block := ⟨f b.label, b.insts.map f⟩

def Function.map (f : Inst → Inst) (x : Function) : Function :=
  ⟨f x.defInst, x.params.map f, x.debugHeader.map f, x.blocks.map (Block.map f), x.endInst.map f,
    x.nonSemantic.map f⟩

def Graph.map (f : Inst → Inst) (x : Graph) : Graph :=
  ⟨f x.defInst, x.inputs.map f, x.insts.map f, x.outputs.map f, f x.endInst, x.nonSemantic.map f⟩

/-- Rewrite every instruction of a module. -/
def Module.map (f : Inst → Inst) (m : Module) : Module :=
  { m with
    capabilities := m.capabilities.map f
    extensions := m.extensions.map f
    imports := m.imports.map f
    memoryModel := m.memoryModel.map f
    samplerMode := m.samplerMode.map f
    entryPoints := m.entryPoints.map f
    graphEntryPoints := m.graphEntryPoints.map f
    executionModes := m.executionModes.map f
    debugs1 := m.debugs1.map f
    debugs2 := m.debugs2.map f
    debugs3 := m.debugs3.map f
    debugInfo := m.debugInfo.map f
    annotations := m.annotations.map f
    typesValues := m.typesValues.map f
    functions := m.functions.map (Function.map f)
    graphs := m.graphs.map (Graph.map f) }

/-- Line instructions the traversal does not reach: those attached to instructions of
graphs, and the trailing ones. -/
def Module.hidden (m : Module) : List Core :=
  m.graphs.flatMap (fun g => g.visit.flatMap Inst.lines) ++ m.trailing

end Verif.Ir
