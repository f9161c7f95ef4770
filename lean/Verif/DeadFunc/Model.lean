/-!
# Dead function elimination
(source/opt/eliminate_dead_functions_pass.cpp, call tree part of source/opt/ir_context.cpp)

`none` stands for undefined behaviour: an in-operand that is not there, or the failed
assertion "Trying to process a function that does not exist.".
-/
namespace Verif.DeadFunc

abbrev Id := Nat

/-- Opcodes of body instructions that `AddCalls` looks at. -/
inductive Op where
  | functionCall | perElementOp | reduce | loadTensor | other
  deriving DecidableEq

/-- A body instruction: opcode and the single words of its in-operands. -/
structure Inst where
  op : Op
  ins : List Nat
  deriving DecidableEq

/-- A function: id and the instructions of all its blocks. -/
structure Func where
  id : Id
  body : List Inst
  deriving DecidableEq

/-- Annotation instructions as `ProcessReachableCallTree` sees them: whether the opcode is
OpDecorate, and the words of the operands (the linkage name, which takes several words, is
represented by one entry). -/
structure Annotation where
  isDecorate : Bool
  operands : List Nat
  deriving DecidableEq

structure Module where
  /-- in-operands of the entry points: execution model, function, name, interface -/
  entryPoints : List (List Nat)
  annotations : List Annotation
  funcs : List Func

/-- spv::Decoration::LinkageAttributes, spv::LinkageType::Export. -/
def linkageAttributes : Nat := 41
def linkageExport : Nat := 0

/-- Bits of spv::MemoryAccessMask (Aligned, MakePointerAvailable, MakePointerVisible). -/
def alignedBit : Nat := 1
def availableBit : Nat := 3
def visibleBit : Nat := 4
/-- Bits of spv::TensorAddressingOperandsMask (TensorView, DecodeFunc, DecodeVectorFunc). -/
def tensorViewBit : Nat := 0
def decodeFuncBit : Nat := 1
def decodeVectorFuncBit : Nat := 2

def one (b : Bool) : Nat := if b then 1 else 0

/-- What `AddCalls` pushes for one instruction, source/opt/ir_context.cpp:1021-1052. -/
def callsOf (i : Inst) : Option (List Id) :=
  match i.op with
  | .functionCall => (i.ins[0]?).map ([·])
  | .perElementOp => (i.ins[1]?).map ([·])
  | .reduce => (i.ins[2]?).map ([·])
  | .loadTensor =>
    match i.ins[3]? with
    | none => none
    | some mask =>
      let count := 1 + one (mask.testBit alignedBit) + one (mask.testBit availableBit) +
        one (mask.testBit visibleBit)
      let tensor := 3 + count
      match i.ins[tensor]? with
      | none => none
      | some tmask =>
        let count := 1 + one (tmask.testBit tensorViewBit)
        let first := if tmask.testBit decodeFuncBit then (i.ins[tensor + count]?).map ([·])
          else some []
        let count := count + one (tmask.testBit decodeFuncBit)
        let second := if tmask.testBit decodeVectorFuncBit then (i.ins[tensor + count]?).map ([·])
          else some []
        match first, second with
        | some a, some b => some (a ++ b)
        | _, _ => none
  | .other => some []

/-- `AddCalls`, source/opt/ir_context.cpp:1018-1054. -/
def addCalls : List Inst → Option (List Id)
  | [] => some []
  | i :: is => match callsOf i, addCalls is with
    | some a, some b => some (a ++ b)
    | _, _ => none

/-- `GetFunction`, source/opt/ir_context.h:643-649. -/
def Module.function (m : Module) (id : Id) : Option Func := m.funcs.find? fun f => f.id == id

/-- Whether an annotation exports an id, source/opt/ir_context.cpp:1077-1086. -/
def exported (a : Annotation) : Option (Option Id) :=
  if a.isDecorate then
    match a.operands[1]? with
    | none => none
    | some d =>
      if d = linkageAttributes then
        match a.operands[a.operands.length - 1]?, a.operands[0]? with
        | some l, some t => some (if l = linkageExport then some t else none)
        | _, _ => none
      else some none
  else some none

/-- The roots found in the annotations, source/opt/ir_context.cpp:1074-1090. -/
def exportRoots (m : Module) : List Annotation → Option (List Id)
  | [] => some []
  | a :: as => match exported a, exportRoots m as with
    | some (some t), some r => some (if (m.function t).isSome then t :: r else r)
    | some none, some r => some r
    | _, _ => none

/-- The roots found in the entry points, source/opt/ir_context.cpp:1068-1070. -/
def entryRoots : List (List Nat) → Option (List Id)
  | [] => some []
  | e :: es => match e[1]?, entryRoots es with
    | some f, some r => some (f :: r)
    | _, _ => none

/-- `ProcessCallTreeFromRoots`, source/opt/ir_context.cpp:1095-1112, with a `pfn` that
records the function. `fuel` bounds the number of iterations. -/
def callTree (m : Module) : Nat → List Id → List Id → Option (List Id)
  | _, [], done => some done
  | 0, _ :: _, _ => none
  | fuel + 1, f :: queue, done =>
    if f ∈ done then callTree m fuel queue done
    else match m.function f with
      | none => none
      | some fn => match addCalls fn.body with
        | none => none
        | some calls => callTree m fuel (queue ++ calls) (done ++ [f])

/-- Iterations that always suffice: one for each root and for each call. -/
def enough (m : Module) (roots : List Id) : Nat :=
  roots.length + (m.funcs.map fun f => ((addCalls f.body).getD []).length).sum

/-- `ProcessReachableCallTree`, source/opt/ir_context.cpp:1065-1093. -/
def reachableCallTree (m : Module) : Option (List Id) :=
  match entryRoots m.entryPoints, exportRoots m m.annotations with
  | some a, some b => callTree m (enough m (a ++ b)) (a ++ b) []
  | _, _ => none

/-- `EliminateDeadFunctionsPass::Process`,
source/opt/eliminate_dead_functions_pass.cpp:25-47. Deleting a function also deletes its
names and decorations and moves non-semantic instructions that follow it
(eliminate_dead_functions_util.cpp:22-62), which is not modelled. -/
def process (m : Module) : Option Module :=
  match reachableCallTree m with
  | none => none
  | some live => some { m with funcs := m.funcs.filter fun f => f.id ∈ live }

/-- `CollectCallTreeFromRoots`, source/opt/ir_context.cpp:1114-1125: as above, but without
a check for functions already seen. -/
def collectCallTree (m : Module) : Nat → List Id → List Id → Option (List Id)
  | _, [], funcs => some funcs
  | 0, _ :: _, _ => none
  | fuel + 1, f :: queue, funcs =>
    match m.function f with
    | none => none
    | some fn => match addCalls fn.body with
      | none => none
      | some calls =>
        collectCallTree m fuel (queue ++ calls) (if f ∈ funcs then funcs else funcs ++ [f])

end Verif.DeadFunc
