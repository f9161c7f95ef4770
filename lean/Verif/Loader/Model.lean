import Verif.NextId.Model

/-!
# Loading a module into the IR and emitting it again

`IrLoader` (source/opt/ir_loader.cpp) receives the parsed instructions one at a time and files
them into the lists of a `Module`; `Module::ToBinary` (source/opt/module.cpp:154-266) walks
these lists and writes the words.

Simplifications.  Of an opcode only what the two functions look at is kept (`Op`).  The words
of an instruction are kept whole: that splitting them into operands (the constructors in
source/opt/instruction.cpp:66-103) and joining them again
(`ToBinaryWithoutAttachedDebugInsts`) is the identity is a separate theorem, about the
parser's operands, in Props.lean.  `IsLine` and `IsNoLine` of an IR instruction
(instruction.cpp:604-614) go through the id of the import of the shader debug info set; here
they go through the set recorded at parse time.  Messages to the consumer are not modelled.
-/
namespace Verif.Loader
open Verif.StringLit (Word)
open Verif.NextId (takeNextIdBound)

/-- The extended instruction sets the loader tells apart (`spvExtInstIsDebugInfo`,
`spvExtInstIsNonSemantic`, source/ext_inst.cpp): the three debug info sets, any other
non-semantic set, any other set. -/
inductive ExtSet
  | shaderDebug | clDebug100 | debugInfo | nonSemantic | plain
  deriving DecidableEq, Repr

/-- The extended instruction numbers the loader tells apart. -/
inductive ExtKey
  | scope | noScope | line | noLine | declare | value | functionDefinition | other
  deriving DecidableEq, Repr

/-- Opcodes, as far as source/opt/ir_loader.cpp, source/opt/reflect.h:29-72 and
source/opt/module.cpp:154-266 tell them apart.
* `annotation d`: `IsAnnotationInst`; `d` says whether `spvOpcodeIsDecoration` holds too
  (it does not for `OpDecorationGroup`).
* `globalValue`: `IsConstantInst`, `OpUntypedVariableKHR`, `OpUndef`.
* `merge`: `OpLoopMerge`, `OpSelectionMerge`.  `terminator`: `spvOpcodeIsBlockTerminator`.
* `ext fwd set key`: `OpExtInst` (`fwd = false`), `OpExtInstWithForwardRefsKHR` (`true`). -/
inductive Op
  | line | noLine
  | ext (fwd : Bool) (set : ExtSet) (key : ExtKey)
  | function | functionEnd | functionParameter | label | terminator | merge | phi | variable
  | graph | graphEnd | graphConstant | graphInput | graphSetOutput | compositeExtract
  | capability | extension | extInstImport | memoryModel | samplerMode | entryPoint
  | graphEntryPoint | executionMode | debug1 | debug2 | debug3 | annotation (d : Bool)
  | type | globalValue | nop | other
  deriving DecidableEq, Repr

/-- A parsed instruction: its opcode and all its words (the first one included). -/
structure PInst where
  op : Op
  words : List Word
  deriving DecidableEq, Repr

/-- `DebugScope`, source/opt/instruction.h:145-183. -/
structure Scope where
  lex : Word
  inl : Word
  deriving DecidableEq, Repr

/-- `DebugScope(kNoDebugScope, kNoInlinedAt)`. -/
def noScope : Scope := ⟨0, 0⟩

/-- A line instruction attached to an instruction, with its own scope. -/
structure LineInst where
  inst : PInst
  scope : Scope
  deriving DecidableEq, Repr

/-- An IR instruction with `dbg_line_insts_` and `dbg_scope_`. -/
structure Instr where
  inst : PInst
  lines : List LineInst
  scope : Scope
  deriving DecidableEq, Repr

/-- `IsLine`, source/opt/instruction.cpp:604-608. -/
def PInst.isLine (x : PInst) : Bool :=
  match x.op with
  | .line => true
  | .ext _ .shaderDebug .line => true
  | _ => false

/-- `IsNoLine`, source/opt/instruction.cpp:610-614. -/
def PInst.isNoLine (x : PInst) : Bool :=
  match x.op with
  | .noLine => true
  | .ext _ .shaderDebug .noLine => true
  | _ => false

/-- `IsLineInst`, source/opt/ir_loader.cpp:42-53 and source/opt/instruction.cpp:602. -/
def PInst.isLineInst (x : PInst) : Bool := x.isLine || x.isNoLine

/-- `IsOpLineInst`, source/opt/reflect.h:55-57. -/
def PInst.isOpLineInst (x : PInst) : Bool :=
  match x.op with
  | .line => true
  | .noLine => true
  | _ => false

/-- `IsDebugLineInst`, source/opt/instruction.cpp:596-600. -/
def PInst.isDebugLineInst (x : PInst) : Bool :=
  match x.op with
  | .ext _ .shaderDebug .line => true
  | .ext _ .shaderDebug .noLine => true
  | _ => false

/-- `spvExtInstIsDebugInfo`. -/
def ExtSet.isDebug : ExtSet → Bool
  | .shaderDebug => true
  | .clDebug100 => true
  | .debugInfo => true
  | _ => false

/-- The instructions of source/opt/ir_loader.cpp:76 and :93. -/
def PInst.isScope (x : PInst) : Bool :=
  match x.op with
  | .ext _ s .scope => s.isDebug
  | _ => false

/-- The instructions of source/opt/ir_loader.cpp:85 and :102. -/
def PInst.isNoScope (x : PInst) : Bool :=
  match x.op with
  | .ext _ s .noScope => s.isDebug
  | _ => false

/-- The words of the operands other than type and result id.  All operands of line
instructions have one word.  `OpLine` has neither, `DebugLine` has both. -/
def PInst.inWords (x : PInst) : List Word :=
  match x.op with
  | .ext _ _ _ => x.words.drop 3
  | _ => x.words.drop 1

/-- `SetResultId` of an instruction with a type id, source/opt/instruction.h:708-721. -/
def PInst.setResultId (x : PInst) (id : Word) : PInst := ⟨x.op, x.words.set 2 id⟩

/-- `DebugScope(words[5], num_words > 6 ? words[6] : 0)`, source/opt/ir_loader.cpp:77-81;
`none`: the read of `words[5]` is out of bounds. -/
def PInst.readScope (x : PInst) : Option Scope :=
  match x.words[5]? with
  | none => none
  | some l => some ⟨l, x.words.getD 6 0⟩

/-- A function under construction, source/opt/function.h:40-260; a block is its label followed
by its instructions. -/
structure OpenFn where
  defn : Instr
  params : List Instr
  header : List Instr
  blocks : List (List Instr)
  deriving DecidableEq, Repr

/-- A finished `Function`; `fin` is null if the module ended before `OpFunctionEnd`. -/
structure Fn where
  body : OpenFn
  fin : Option Instr
  nonSem : List Instr
  deriving DecidableEq, Repr

/-- A graph under construction, source/opt/graph.h. -/
structure OpenGraph where
  defn : Instr
  inputs : List Instr
  insts : List Instr
  outputs : List Instr
  deriving DecidableEq, Repr

/-- A finished `Graph`. -/
structure Graph where
  body : OpenGraph
  fin : Instr
  nonSem : List Instr
  deriving DecidableEq, Repr

/-- The lists of a `Module`, source/opt/module.h:300-349. -/
structure Mod where
  caps : List Instr
  exts : List Instr
  imports : List Instr
  memoryModel : Option Instr
  sampler : Option Instr
  entryPoints : List Instr
  modes : List Instr
  debugs1 : List Instr
  debugs2 : List Instr
  debugs3 : List Instr
  annotations : List Instr
  typesValues : List Instr
  debugInfo : List Instr
  fns : List Fn
  graphEntryPoints : List Instr
  graphs : List Graph
  trailing : List LineInst
  deriving DecidableEq, Repr

/-- The empty module. -/
def Mod.empty : Mod := ⟨[], [], [], none, none, [], [], [], [], [], [], [], [], [], [], [], []⟩

/-- The state of `IrLoader`, source/opt/ir_loader.h:57-89, with the id bound of the module. -/
structure LState where
  m : Mod
  fn : Option OpenFn
  blk : Option (List Instr)
  gr : Option OpenGraph
  lines : List LineInst
  lastLine : Option LineInst
  scope : Scope
  bound : Word
  maxBound : Word
  track : Bool
  deriving DecidableEq, Repr

/-- `IrLoader::IrLoader`, ir_loader.cpp:35-40. -/
def LState.init (bound maxBound : Word) (track : Bool) : LState :=
  ⟨Mod.empty, none, none, none, [], none, noScope, bound, maxBound, track⟩

/-- `Clone`, then for `DebugLine` a fresh result id, ir_loader.cpp:115-118, 124-127. -/
def cloneLine (s : LState) (l : LineInst) : LineInst × LState :=
  if l.inst.isDebugLineInst then
    let r := takeNextIdBound s.bound s.maxBound
    (⟨l.inst.setResultId r.1, l.scope⟩, { s with bound := r.2 })
  else (l, s)

/-- ir_loader.cpp:110-128: make the instruction and attach its line instructions. -/
def attach (s : LState) (x : PInst) : Instr × LState :=
  match s.lines.getLast? with
  | some l =>
    if s.track && !l.inst.isNoLine then
      let r := cloneLine s l
      (⟨x, s.lines, noScope⟩, { r.2 with lastLine := some r.1, lines := [] })
    else (⟨x, s.lines, noScope⟩, { s with lines := [] })
  | none =>
    match s.lastLine with
    | some l =>
      let l' : LineInst := ⟨l.inst, s.scope⟩
      let r := cloneLine s l'
      (⟨x, [l'], noScope⟩, { r.2 with lastLine := some r.1 })
    | none => (⟨x, [], noScope⟩, s)

/-- `SetDebugScope`, source/opt/instruction.h:723-728. -/
def Instr.setScope (i : Instr) (sc : Scope) : Instr :=
  ⟨i.inst, i.lines.map fun l => ⟨l.inst, sc⟩, sc⟩

/-- `if (last_dbg_scope_.GetLexicalScope() != kNoDebugScope) SetDebugScope(..)`,
ir_loader.cpp:173-174, 218-219. -/
def addScope (i : Instr) (sc : Scope) : Instr := if sc.lex = 0 then i else i.setScope sc

/-- `AddNonSemanticInstruction` of the last function. -/
def addToLastFn : List Fn → Instr → List Fn
  | [], _ => []
  | [f], i => [{ f with nonSem := f.nonSem ++ [i] }]
  | f :: fs, i => f :: addToLastFn fs i

/-- `AddNonSemanticInstruction` of the last graph. -/
def addToLastGraph : List Graph → Instr → List Graph
  | [], _ => []
  | [g], i => [{ g with nonSem := g.nonSem ++ [i] }]
  | g :: gs, i => g :: addToLastGraph gs i

/-- ir_loader.cpp:321-385: outside functions and graphs. -/
def addGlobal (m : Mod) (i : Instr) : Option Mod :=
  match i.inst.op with
  | .capability => some { m with caps := m.caps ++ [i] }
  | .extension => some { m with exts := m.exts ++ [i] }
  | .extInstImport => some { m with imports := m.imports ++ [i] }
  | .memoryModel => some { m with memoryModel := some i }
  | .samplerMode => some { m with sampler := some i }
  | .entryPoint => some { m with entryPoints := m.entryPoints ++ [i] }
  | .graphEntryPoint => some { m with graphEntryPoints := m.graphEntryPoints ++ [i] }
  | .executionMode => some { m with modes := m.modes ++ [i] }
  | .debug1 => some { m with debugs1 := m.debugs1 ++ [i] }
  | .debug2 => some { m with debugs2 := m.debugs2 ++ [i] }
  | .debug3 => some { m with debugs3 := m.debugs3 ++ [i] }
  | .annotation _ => some { m with annotations := m.annotations ++ [i] }
  | .type => some { m with typesValues := m.typesValues ++ [i] }
  | .globalValue => some { m with typesValues := m.typesValues ++ [i] }
  | .variable => some { m with typesValues := m.typesValues ++ [i] }
  | .ext _ set _ =>
    if set.isDebug then some { m with debugInfo := m.debugInfo ++ [i] }
    else if set = .nonSemantic then
      if m.graphs ≠ [] then some { m with graphs := addToLastGraph m.graphs i }
      else if m.fns ≠ [] then some { m with fns := addToLastFn m.fns i }
      else some { m with typesValues := m.typesValues ++ [i] }
    else none
  | _ => none

/-- ir_loader.cpp:198-214: inside a graph. -/
def addInGraph (g : OpenGraph) (i : Instr) : Option OpenGraph :=
  match i.inst.op with
  | .graphInput => some { g with inputs := g.inputs ++ [i] }
  | .graphSetOutput => some { g with outputs := g.outputs ++ [i] }
  | .ext false _ _ => some { g with insts := g.insts ++ [i] }
  | .compositeExtract => some { g with insts := g.insts ++ [i] }
  | _ => none

/-- What ir_loader.cpp:220-320 does with an instruction inside a function. -/
inductive Where
  | block | header | param | dropped | bad
  deriving DecidableEq, Repr

/-- ir_loader.cpp:220-320.  `DebugScope` and `DebugNoScope` have been dealt with before, and so
have `DebugLine` and `DebugNoLine`. -/
def whereInFn (inBlock : Bool) (op : Op) : Where :=
  match op with
  | .ext _ .clDebug100 k | .ext _ .debugInfo k =>
    if k = .declare || k = .value then (if inBlock then .block else .header) else .bad
  | .ext _ .shaderDebug k =>
    if k = .declare || k = .value || k = .scope || k = .noScope || k = .functionDefinition then
      (if inBlock then .block else .dropped)
    else .bad
  | .functionParameter => if inBlock then .block else .param
  | _ => if inBlock then .block else .bad

/-- ir_loader.cpp:215-320: inside a function. -/
def addInFn (s : LState) (f : OpenFn) (i : Instr) : Option LState :=
  let sc := if i.inst.op = .merge then noScope else s.scope
  let i := addScope i sc
  let s := { s with scope := sc }
  match whereInFn s.blk.isSome i.inst.op, s.blk with
  | .block, some b => some { s with blk := some (b ++ [i]) }
  | .header, _ => some { s with fn := some { f with header := f.header ++ [i] } }
  | .param, _ => some { s with fn := some { f with params := f.params ++ [i] } }
  | .dropped, _ => some s
  | _, _ => none

/-- ir_loader.cpp:130-389: file the instruction. -/
def file (s : LState) (i : Instr) : Option LState :=
  match i.inst.op with
  | .function =>
    if s.fn.isSome then none else some { s with fn := some ⟨i, [], [], []⟩ }
  | .functionEnd =>
    match s.fn, s.blk with
    | some f, none => some { s with m := { s.m with fns := s.m.fns ++ [⟨f, some i, []⟩] }, fn := none }
    | _, _ => none
  | .label =>
    match s.fn, s.blk with
    | some _, none => some { s with blk := some [i] }
    | _, _ => none
  | .terminator =>
    match s.fn, s.blk with
    | some f, some b =>
      some { s with
        fn := some { f with blocks := f.blocks ++ [b ++ [addScope i s.scope]] }, blk := none
        scope := noScope, lastLine := none, lines := [] }
    | _, _ => none
  | .graph =>
    if s.gr.isSome then none else some { s with gr := some ⟨i, [], [], []⟩ }
  | .graphEnd =>
    match s.gr with
    | some g => some { s with m := { s.m with graphs := s.m.graphs ++ [⟨g, i, []⟩] }, gr := none }
    | none => none
  | .graphConstant => some { s with m := { s.m with typesValues := s.m.typesValues ++ [i] } }
  | _ =>
    match s.gr with
    | some g => (addInGraph g i).map fun g => { s with gr := some g }
    | none =>
      match s.fn with
      | some f => addInFn s f i
      | none => (addGlobal s.m i).map fun m => { s with m := m }

/-- `IrLoader::AddInstruction`, ir_loader.cpp:55-390; `none`: it returned false. -/
def addInstruction (s : LState) (x : PInst) : Option LState :=
  if x.isLineInst then
    some { s with lastLine := none, lines := s.lines ++ [⟨x, s.scope⟩] }
  else if x.isScope then
    match x.readScope with
    | none => none
    | some sc => some { s with scope := sc }
  else if x.isNoScope then some { s with scope := noScope }
  else
    let r := attach s x
    file r.2 r.1

/-- All the calls of `AddInstruction`, in order. -/
def addAll : LState → List PInst → Option LState
  | s, [] => some s
  | s, x :: xs =>
    match addInstruction s x with
    | none => none
    | some s => addAll s xs

/-- `IrLoader::EndModule`, ir_loader.cpp:394-424: an open block and an open function are kept,
an open graph is not; the line instructions left over are the trailing ones. -/
def endModule (s : LState) : Mod :=
  let fn := match s.fn, s.blk with
    | some f, some b => some { f with blocks := f.blocks ++ [b] }
    | f, _ => f
  let fns := match fn with
    | some f => s.m.fns ++ [⟨f, none, []⟩]
    | none => s.m.fns
  { s.m with fns := fns, trailing := s.lines }

/-- `BuildModule`, source/opt/build_module.cpp:44-79, on the instructions the parser reports:
the module and its id bound. -/
def load (bound maxBound : Word) (track : Bool) (xs : List PInst) : Option (Mod × Word) :=
  (addAll (LState.init bound maxBound track) xs).map fun s => (endModule s, s.bound)

/-! ## Emission -/

/-- What `write_inst` is called with: an attached line instruction or an instruction. -/
inductive Item
  | line (l : LineInst)
  | inst (i : Instr)
  deriving DecidableEq, Repr

/-- The instruction. -/
def Item.x : Item → PInst
  | .line l => l.inst
  | .inst i => i.inst

/-- `GetDebugScope()`. -/
def Item.scope : Item → Scope
  | .line l => l.scope
  | .inst i => i.scope

/-- `dbg_line_insts().empty()`. -/
def Item.noLines : Item → Bool
  | .line _ => true
  | .inst i => i.lines.isEmpty

/-- `Instruction::WhileEachInst` with `run_on_debug_line_insts`, instruction.h:827-845. -/
def Instr.items (i : Instr) : List Item := i.lines.map .line ++ [.inst i]

/-- `Function::WhileEachInst`, source/opt/function.cpp:129-175. -/
def Fn.instrs (f : Fn) : List Instr :=
  [f.body.defn] ++ f.body.params ++ f.body.header ++ f.body.blocks.flatten ++ f.fin.toList ++ f.nonSem

/-- `Graph::ForEachInst`, source/opt/graph.cpp:77-103. -/
def Graph.instrs (g : Graph) : List Instr :=
  [g.body.defn] ++ g.body.inputs ++ g.body.insts ++ g.body.outputs ++ [g.fin] ++ g.nonSem

/-- The instructions outside graphs in the order of the const `Module::ForEachInst`,
module.cpp:117-142. -/
def Mod.beforeGraphs (m : Mod) : List Instr :=
  m.caps ++ m.exts ++ m.imports ++ m.memoryModel.toList ++ m.sampler.toList ++ m.entryPoints ++
  m.modes ++ m.debugs1 ++ m.debugs2 ++ m.debugs3 ++ m.annotations ++ m.typesValues ++ m.debugInfo ++
  m.fns.flatMap Fn.instrs ++ m.graphEntryPoints

/-- The instructions in graphs in the order of `Module::ForEachInst`, module.cpp:143-147. -/
def Mod.inGraphs (m : Mod) : List Instr := m.graphs.flatMap Graph.instrs

/-- The const `Module::ForEachInst` with `run_on_debug_line_insts`, module.cpp:117-152; graphs
do not pass on the flag (graph.cpp:80). -/
def Mod.items (m : Mod) : List Item :=
  m.beforeGraphs.flatMap Instr.items ++ m.inGraphs.map .inst ++ m.trailing.map .line

/-- The parameters of `ToBinary` and what it asks the context for: the ids of the imports of
the shader debug info set (0 if there is none), whether the OpenCL debug info set is imported,
the id of the void type, the limit on ids, and the first element of `ext_inst_debuginfo_`. -/
structure Cfg where
  skipNop : Bool
  filter : Bool
  shaderSet : Word
  cl100 : Bool
  voidId : Word
  maxBound : Word
  dbg : Option PInst
  deriving DecidableEq, Repr

/-- The variables of `ToBinary`. -/
structure E where
  scope : Scope
  line : Option PInst
  merge : Bool
  region : Bool
  seen : List (List Word)
  bound : Word
  deriving DecidableEq, Repr

/-- Their initial values, module.cpp:163-170. -/
def E.init (bound : Word) : E := ⟨noScope, none, false, false, [], bound⟩

/-- The comparison of module.cpp:193-198; `none`: the assertion fails (in a release build, a
read out of bounds). -/
def sameWords : List Word → List Word → Option Bool
  | [], _ => some true
  | _ :: _, [] => none
  | a :: as, b :: bs => if a = b then sameWords as bs else some false

/-- module.cpp:205-217: the instruction that ends the effect of the last line. -/
def noLineInst (c : Cfg) (bound : Word) : PInst × Word :=
  if c.shaderSet ≠ 0 then
    let r := takeNextIdBound bound c.maxBound
    (⟨.ext false .shaderDebug .noLine, [0x0005000c, c.voidId, r.1, c.shaderSet, 104]⟩, r.2)
  else (⟨.noLine, [0x0001013d]⟩, bound)

/-- module.cpp:188-220: skip a line that is already in effect, or end the effect of the last
line.  `none`: fault; `some none`: `write_inst` returns; otherwise what is written. -/
def lineStage (c : Cfg) (e : E) (it : Item) : Option (Option (List PInst × E)) :=
  match e.line with
  | none => some (some ([], e))
  | some l =>
    if it.x.isLine then
      match sameWords l.inWords it.x.inWords with
      | none => none
      | some true => some none
      | some false => some (some ([], e))
    else if !it.x.isNoLine && it.noLines then
      let r := noLineInst c e.bound
      some (some ([r.1], { e with line := none, bound := r.2 }))
    else some (some ([], e))

/-- `DebugScope::ToBinary`, source/opt/instruction.cpp:1098-1121, called with the type and the
set of `ext_inst_debuginfo_`'s first instruction. -/
def scopeInst (d : PInst) (sc : Scope) (id : Word) : PInst :=
  let set := match d.op with
    | .ext _ s _ => s
    | _ => .plain
  let ty := d.words.getD 1 0
  let sid := d.words.getD 3 0
  if sc.lex = 0 then ⟨.ext false set .noScope, [0x0005000c, ty, id, sid, 24]⟩
  else if sc.inl = 0 then ⟨.ext false set .scope, [0x0006000c, ty, id, sid, 23, sc.lex]⟩
  else ⟨.ext false set .scope, [0x0007000c, ty, id, sid, 23, sc.lex, sc.inl]⟩

/-- module.cpp:222-227. -/
def newRegion (region : Bool) (x : PInst) : Bool :=
  match x.op with
  | .label => true
  | .variable => region
  | .phi => region
  | .line => region
  | .noLine => region
  | _ => false

/-- module.cpp:229-245, without the instruction itself.  `none`: `ext_inst_debuginfo_` is empty
and its first element is read. -/
def scopeStage (c : Cfg) (e : E) (it : Item) : Option (List PInst × E) :=
  if it.scope ≠ e.scope ∧ e.merge = false then
    if e.region = false ∨ c.cl100 = true then
      match c.dbg with
      | none => none
      | some d =>
        let r := takeNextIdBound e.bound c.maxBound
        some ([scopeInst d it.scope r.1], { e with scope := it.scope, bound := r.2 })
    else some ([], { e with scope := it.scope })
  else some ([], e)

/-- module.cpp:249-259. -/
def finishStage (e : E) (x : PInst) : E :=
  if x.op = .terminator ∨ x.isNoLine then { e with merge := false, line := none }
  else if x.op = .merge then { e with merge := true, line := none }
  else if x.isLine then { e with merge := false, line := some x }
  else { e with merge := false }

/-- module.cpp:175-182: is this a decoration written before? -/
def isDup (c : Cfg) (e : E) (x : PInst) : Bool :=
  c.filter && decide (x.op = .annotation true) && e.seen.contains x.words

/-- module.cpp:181. -/
def addSeen (c : Cfg) (e : E) (x : PInst) : E :=
  if c.filter ∧ x.op = .annotation true then { e with seen := x.words :: e.seen } else e

/-- module.cpp:229-248: the scope and the instruction itself, unless it is a skipped `OpNop`. -/
def writeStage (c : Cfg) (e : E) (it : Item) : Option (List PInst × E) :=
  if c.skipNop = true ∧ it.x.op = .nop then some ([], e)
  else (scopeStage c e it).map fun r => (r.1 ++ [it.x], r.2)

/-- `write_inst`, module.cpp:171-260. -/
def writeInst (c : Cfg) (e : E) (it : Item) : Option (List PInst × E) :=
  if isDup c e it.x then some ([], e)
  else
    let e := addSeen c e it.x
    if e.merge && it.x.isLineInst then some ([], e)
    else
      match lineStage c e it with
      | none => none
      | some none => some ([], e)
      | some (some r) =>
        match writeStage c { r.2 with region := newRegion r.2.region it.x } it with
        | none => none
        | some w => some (r.1 ++ w.1, finishStage w.2 it.x)

/-- `ForEachInst(write_inst, true)`. -/
def writeAll (c : Cfg) : E → List Item → Option (List PInst × E)
  | e, [] => some ([], e)
  | e, it :: its =>
    match writeInst c e it with
    | none => none
    | some r =>
      match writeAll c r.2 its with
      | none => none
      | some t => some (r.1 ++ t.1, t.2)

/-- The part of `ToBinary` after the header: the instructions written, and the bound finally
stored in the header (module.cpp:265). -/
def emit (c : Cfg) (bound : Word) (m : Mod) : Option (List PInst × Word) :=
  (writeAll { c with dbg := (m.debugInfo.head?).map (·.inst) } (E.init bound) m.items).map
    fun r => (r.1, r.2.bound)

end Verif.Loader
