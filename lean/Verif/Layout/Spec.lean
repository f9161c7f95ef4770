import Verif.Layout.Model

/-!
# The logical layout of a module, as a grammar (SPIR-V specification, section 2.4)

    module       ::= prologue types declaration* (definition | gap)* graphs
    prologue     ::= capabilities, extensions, imports, the memory model, ... in that order,
                     with exactly one memory model
    declaration  ::= OpFunction OpFunctionParameter* OpFunctionEnd
    definition   ::= OpFunction header* block+ OpFunctionEnd
    block        ::= OpLabel instruction* terminator separator*
    graph        ::= OpGraphARM input* body* OpGraphSetOutputARM output* OpGraphEndARM
-/
namespace Verif.Layout.Spec

/-- Position in the prologue (sections 1 to 9 of the logical layout). -/
def prologueRank : Op → Option Nat
  | .capability => some 1
  | .extension => some 2
  | .extInstImport => some 3
  | .memoryModel => some 4
  | .samplerImageAddressingMode => some 5
  | .entryPoint => some 6
  | .executionMode => some 7
  | .source => some 8
  | .name => some 9
  | .moduleProcessed => some 10
  | .annotation => some 11
  | _ => none

/-- Instructions of the prologue, in order, one of them the memory model. -/
def Prologue (l : List Op) : Prop :=
  (∀ x ∈ l, (prologueRank x).isSome) ∧
  l.Pairwise (fun x y => (prologueRank x).getD 0 ≤ (prologueRank y).getD 0) ∧
  l.count .memoryModel = 1

/-- Debug information that belongs inside functions (DebugScope, DebugLine, ...). -/
def IsLocalDebug (x : Op) : Prop := ∃ e, x = .ext e ∧ e.debugInfo ∧ e.localInfo

/-- Debug information that belongs with the types. -/
def IsGlobalDebug (x : Op) : Prop := ∃ e, x = .ext e ∧ e.debugInfo ∧ e.localInfo = false

/-- A non-semantic instruction that is not debug information. -/
def IsNonSemantic (x : Op) : Prop := ∃ e, x = .ext e ∧ e.debugInfo = false ∧ e.nonSemantic

def IsExt (x : Op) : Prop := ∃ e, x = .ext e

/-- Types, constants, global variables, undefined values, lines, global debug information. -/
def InTypes (x : Op) : Prop :=
  x = .typ ∨ x = .var ∨ x = .undef ∨ x = .line ∨ IsGlobalDebug x ∨ IsNonSemantic x

def Declaration (l : List Op) : Prop :=
  ∃ ps, l = .function :: ps ++ [.functionEnd] ∧ ∀ x ∈ ps, x = Op.functionParameter

/-- What may stand in a block besides its label and its terminator. -/
def InBlock (x : Op) : Prop :=
  x = .other ∨ x = .var ∨ x = .undef ∨ x = .line ∨ x = .compositeExtract ∨
  (IsExt x ∧ ¬ IsGlobalDebug x)

/-- What may stand in a function between blocks. -/
def Separator (x : Op) : Prop := x = .line ∨ IsLocalDebug x

def Block (l : List Op) : Prop :=
  ∃ body sep, l = .label :: body ++ .terminator :: sep ∧
    (∀ x ∈ body, InBlock x) ∧ ∀ x ∈ sep, Separator x

def Definition (l : List Op) : Prop :=
  ∃ header blocks, l = .function :: header ++ (blocks.flatten ++ [.functionEnd]) ∧
    (∀ x ∈ header, x = .functionParameter ∨ Separator x) ∧
    blocks ≠ [] ∧ ∀ b ∈ blocks, Block b

/-- What may stand between function definitions. -/
def Gap (l : List Op) : Prop := ∃ x, l = [x] ∧ (x = .line ∨ IsNonSemantic x)

/-- A non-semantic OpExtInst (debug information or not) may stand anywhere among graphs. -/
def IsPlainNonSemantic (x : Op) : Prop := ∃ e, x = .ext e ∧ e.forwardRefs = false ∧ e.nonSemantic

def Graph (l : List Op) : Prop :=
  ∃ ins body outs,
    l = .graph :: ins ++ (body ++ (.graphSetOutput :: outs ++ [.graphEnd])) ∧
    (∀ x ∈ ins, x = .graphInput ∨ IsPlainNonSemantic x) ∧
    (∀ x ∈ body, x = .compositeExtract ∨ IsExt x) ∧
    (∀ x ∈ outs, x = .graphSetOutput ∨ IsPlainNonSemantic x)

def GraphItem (l : List Op) : Prop :=
  Graph l ∨ l = [.graphEntryPoint] ∨ ∃ x, l = [x] ∧ IsPlainNonSemantic x

/-- The list does not begin with an extended instruction. -/
def NoLeadingExt (l : List Op) : Prop := ∀ x, l.head? = some x → ¬ IsExt x

/-- Everything after the prologue. Non-semantic instructions cannot open the types section
nor the graph section. -/
structure Body (l : List Op) (types : List Op) (decls defs graphs : List (List Op)) : Prop where
  split : l = types ++ (decls.flatten ++ (defs.flatten ++ graphs.flatten))
  inTypes : ∀ x ∈ types, InTypes x
  areDecls : ∀ d ∈ decls, Declaration d
  areDefs : ∀ d ∈ defs, Definition d ∨ Gap d
  areGraphs : ∀ g ∈ graphs, GraphItem g
  graphsStart : NoLeadingExt graphs.flatten

/-- A module in logical layout order. -/
def WellLaidOut (m : List Op) : Prop :=
  ∃ prologue body types decls defs graphs,
    m = prologue ++ body ∧ Prologue prologue ∧
    Body body types decls defs graphs ∧ NoLeadingExt body

end Verif.Layout.Spec
