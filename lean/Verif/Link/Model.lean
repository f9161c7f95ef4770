import Verif.Ir.Model
/-!
# The linker  (source/link/linker.cpp)

Shifting ids, the version of the header, merging the sections, and the table of
imports and exports.  Diagnostics are reduced to "an error"; undefined behaviour and
failed assertions are `fault`.  Not modelled: function variants, the removal of
duplicates, the comparison of types and decorations, and the replacement of the
imported ids.
-/
namespace Verif.Link
open Verif.StringLit (Word Byte)
open Verif.Binary (OT)
open Verif.Ir

inductive Res (α : Type) where
  | ok (a : α)
  | err
  | fault
deriving DecidableEq

/-! ## Ids -/

/-- `*id += id_offset` for each id operand (linker.cpp:195-197, `Instruction::ForEachId`,
    opt/instruction.h:798-801).  An id operand without words, which the parser never
    makes, is left alone. -/
def shiftOperand (off : Word) (o : Operand) : Operand :=
  if o.type.isId then
    match o.words with
    | w :: ws => ⟨o.type, (w + off) :: ws⟩
    | [] => o
  else o

/-- The callback on one instruction.  `ForEachInst` is called without the flag for line
    instructions, and the debug scope is no operand: both stay as they are. -/
def shiftInst (off : Word) (i : Inst) : Inst :=
  { i with core := { i.core with operands := i.core.operands.map (shiftOperand off) } }

def shiftModule (off : Word) (m : Module) : Module := m.map (shiftInst off)

/-- The sum of linker.cpp:179-184, in `size_t`. -/
def boundSum (mods : List Module) : BitVec 64 :=
  mods.foldl (fun acc m => acc + m.bound.setWidth 64 - 1#64) 1#64

/-- The loop of linker.cpp:192-203. -/
def shiftLoop : (off : Word) → List Module → List Module
  | _, [] => []
  | off, m :: ms => shiftModule off m :: shiftLoop (off + m.bound - 1#32) ms

/-- `ShiftIdsInModules` (linker.cpp:164-206): the modules and the new bound. -/
def shiftIds (mods : List Module) : Res (List Module × Word) :=
  match mods with
  | [] => .err
  | m :: ms =>
    let bound := boundSum (m :: ms)
    if bound.toNat > 0xffffffff then .err
    else .ok (m :: shiftLoop (m.bound - 1#32) ms, bound.setWidth 32)

/-! ## Header -/

/-- The version of `GenerateHeader` (linker.cpp:221-236). -/
def linkVersion (useHighest : Bool) : List Word → Res Word
  | [] => .err
  | v :: vs => go v vs
where
  go (v : Word) : List Word → Res Word
    | [] => .ok v
    | w :: ws =>
      if useHighest then go (if v < w then w else v) ws
      else if w ≠ v then .err
      else go v ws

/-! ## Merging -/

def opEntryPoint : Nat := 15
def opConditionalEntryPoint : Nat := 6249
def opModuleProcessed : Nat := 330

/-- `GetSingleWordOperand`: `none` is a failed assertion. -/
def wordAt (i : Inst) (k : Nat) : Option Word :=
  match i.core.operands[k]? with
  | some ⟨_, [w]⟩ => some w
  | _ => none

/-- `Operand::AsString`. -/
def stringAt (i : Inst) (k : Nat) : Option (List Byte) :=
  match i.core.operands[k]? with
  | some o =>
    match StringLit.makeString o.words with
    | .found s => some s
    | .unterminated _ => none
  | none => none

/-- The execution model (first operand) and the name of an entry point
    (linker.cpp:331-335).  The first operand of `OpConditionalEntryPointINTEL` is not its
    execution model, but this is what the code compares. -/
def entryKey (i : Inst) : Option (Word × List Byte) := do
  let model ← wordAt i 0
  let name ← stringAt i (if i.core.opcode = opConditionalEntryPoint then 3 else 2)
  pure (model, name)

/-- The loop over the entry points (linker.cpp:328-351). -/
def entryPoints (seen : List (Word × List Byte)) : List Inst → Res Unit
  | [] => .ok ()
  | i :: is =>
    match entryKey i with
    | none => .fault
    | some k => if k ∈ seen then .err else entryPoints (seen ++ [k]) is

/-- Addressing and memory models (linker.cpp:275-326): the first module's instruction. -/
def memoryModel (mods : List Module) : Res Inst :=
  match mods with
  | [] => .err
  | m :: ms =>
    match m.memoryModel with
    | none => .err
    | some mm => go mm ms
where
  go (mm : Inst) : List Module → Res Inst
    | [] => .ok mm
    | m :: ms =>
      match m.memoryModel with
      | none => .err
      | some i =>
        match wordAt mm 0, wordAt mm 1, wordAt i 0, wordAt i 1 with
        | some a, some b, some c, some d => if c ≠ a ∨ d ≠ b then .err else go mm ms
        | _, _, _, _ => .fault

def processed : Inst :=
  ⟨⟨opModuleProcessed, [⟨.LITERAL_STRING,
    StringLit.makeVector ("Linked by SPIR-V Tools Linker".toList.map (fun c => BitVec.ofNat 8 c.toNat))⟩],
    0, 0⟩, []⟩

/-- `MergeModules` (linker.cpp:247-413) into an empty module with the given header.  Graphs,
    their entry points, `OpSamplerImageAddressingModeNV` and the trailing line
    instructions of the inputs are not copied. -/
def merge (version bound : Word) (mods : List Module) : Res Module :=
  match memoryModel mods with
  | .err => .err
  | .fault => .fault
  | .ok mm =>
    match entryPoints [] (mods.flatMap (·.entryPoints)) with
    | .err => .err
    | .fault => .fault
    | .ok () => .ok {
        bound := bound
        capabilities := mods.flatMap (·.capabilities)
        extensions := mods.flatMap (·.extensions)
        imports := mods.flatMap (·.imports)
        memoryModel := some mm
        samplerMode := none
        entryPoints := mods.flatMap (·.entryPoints)
        graphEntryPoints := []
        executionModes := mods.flatMap (·.executionModes)
        debugs1 := mods.flatMap (·.debugs1)
        debugs2 := mods.flatMap (·.debugs2)
        debugs3 := mods.flatMap (·.debugs3) ++ (if version.toNat ≥ 0x10100 then [processed] else [])
        debugInfo := mods.flatMap (·.debugInfo)
        annotations := mods.flatMap (·.annotations)
        typesValues := mods.flatMap (·.typesValues)
        functions := mods.flatMap (·.functions)
        graphs := []
        trailing := [] }

/-- Phases 1 to 3 of `Link` (linker.cpp:889-909), for inputs given with their versions. -/
def combine (useHighest : Bool) (ins : List (Word × Module)) : Res Module :=
  match shiftIds (ins.map (·.2)) with
  | .err => .err
  | .fault => .fault
  | .ok (mods, bound) =>
    match linkVersion useHighest (ins.map (·.1)) with
    | .err => .err
    | .fault => .fault
    | .ok v => if bound = 0 then .err else merge v bound mods

/-! ## Imports and exports -/

def opDecorate : Nat := 71
def opVariable : Nat := 59
def opFunction : Nat := 54
def decLinkage : Word := 41
def linkExport : Word := 0
def linkImport : Word := 1
def linkOnce : Word := 2

/-- `LinkageSymbolInfo` (linker.cpp:62-69). -/
structure Info where
  id : Word
  typeId : Word
  name : List Byte
  params : List Word
deriving DecidableEq

/-- The operand of a type. -/
def operandOf (t : OT) (i : Inst) : Option Word :=
  match i.core.operands.find? (·.type == t) with
  | some ⟨_, w :: _⟩ => some w
  | _ => none

/-- `Instruction::result_id`, `type_id`; 0 if there is none. -/
def resultId (i : Inst) : Word := (operandOf .RESULT_ID i).getD 0
def typeId (i : Inst) : Word := (operandOf .TYPE_ID i).getD 0

/-- `DefUseManager::GetDef`: result ids are unique, so this is the first instruction with
    the id. -/
def getDef (m : Module) (id : Word) : Option Inst :=
  m.visit.find? (fun i => operandOf .RESULT_ID i == some id)

/-- The body of the loop over the annotations (linker.cpp:433-487): the linkage type and the
    symbol, if the annotation declares one.  `builtIn` says which ids have the `BuiltIn`
    decoration (:440-452). -/
def symbolOf (m : Module) (builtIn : Word → Bool) (d : Inst) : Res (Option (Word × Info)) :=
  if d.core.opcode ≠ opDecorate then .ok none
  else
    match wordAt d 1 with
    | none => .fault
    | some dec =>
      if dec ≠ decLinkage then .ok none
      else
        match wordAt d 0, wordAt d 3, stringAt d 2 with
        | some id, some kind, some name =>
          if builtIn id then .ok none
          else
            match getDef m id with
            | none => .err
            | some i =>
              if i.core.opcode = opVariable then .ok (some (kind, ⟨id, typeId i, name, []⟩))
              else if i.core.opcode = opFunction then
                match wordAt i 3 with
                | none => .fault
                | some t => .ok (some (kind, ⟨id, t, name,
                    (m.functions.filter (fun f => resultId f.defInst = id)).flatMap
                      (fun f => f.params.map resultId)⟩))
              else .err
        | _, _, _ => .fault

/-- The tables: imports, and the maps of exports and of `LinkOnceODR` definitions. -/
structure Tables where
  imports : List Info
  exports : List (List Byte × List Info)
  linkonce : List (List Byte × Info)

/-- `exports[name].push_back(info)`. -/
def pushExport (name : List Byte) (i : Info) : List (List Byte × List Info) → List (List Byte × List Info)
  | [] => [(name, [i])]
  | (n, is) :: l => if n = name then (n, is ++ [i]) :: l else (n, is) :: pushExport name i l

/-- The end of the loop body (linker.cpp:489-496). -/
def addSymbol (t : Tables) (kind : Word) (i : Info) : Tables :=
  if kind = linkImport then { t with imports := t.imports ++ [i] }
  else if kind = linkExport then { t with exports := pushExport i.name i t.exports }
  else if kind = linkOnce then
    if (t.linkonce.lookup i.name).isNone then { t with linkonce := t.linkonce ++ [(i.name, i)] } else t
  else t

/-- The loop over the annotations (linker.cpp:433-497). -/
def collect (m : Module) (builtIn : Word → Bool) : List Inst → Tables → Res Tables
  | [], t => .ok t
  | d :: ds, t =>
    match symbolOf m builtIn d with
    | .err => .err
    | .fault => .fault
    | .ok none => collect m builtIn ds t
    | .ok (some (kind, i)) => collect m builtIn ds (addSymbol t kind i)

/-- The loop over `linkonce` (linker.cpp:499-507).  The order of the hash map decides only
    which name an error mentions. -/
def addLinkonce : List (List Byte × Info) → List (List Byte × List Info) →
    Option (List (List Byte × List Info))
  | [], ex => some ex
  | (n, i) :: l, ex => if (ex.lookup n).isNone then addLinkonce l (pushExport n i ex) else none

/-- The loop over the imports (linker.cpp:527-537). -/
def pairUp (allowPartial : Bool) (ex : List (List Byte × List Info)) : List Info → Option (List (Info × Info))
  | [] => some []
  | i :: is =>
    match (ex.lookup i.name).getD [] with
    | [] => if allowPartial then pairUp allowPartial ex is else none
    | e :: _ => (pairUp allowPartial ex is).map ((i, e) :: ·)

/-- `GetImportExportPairs` (linker.cpp:415-540). -/
def importExportPairs (m : Module) (builtIn : Word → Bool) (allowPartial allowMultiple : Bool) :
    Res (List (Info × Info)) :=
  match collect m builtIn m.annotations ⟨[], [], []⟩ with
  | .err => .err
  | .fault => .fault
  | .ok t =>
    match addLinkonce t.linkonce t.exports with
    | none => .err
    | some ex =>
      if allowMultiple = false ∧ ex.any (fun e => 1 < e.2.length) then .err
      else
        match pairUp allowPartial ex t.imports with
        | none => .err
        | some r => .ok r

end Verif.Link
