import Verif.Propagator.Spec
import Verif.Ccp.Model
/-!
# Executions of a function, and what constant propagation assumes
-/
namespace Verif.Ccp.Spec
open Verif.Ccp Verif.Propagator
variable {I B Mem : Type} [DecidableEq I] [DecidableEq B]

inductive Value where
  | bool (b : Bool)
  | int (n : Nat)
  | data (x : Nat)
  deriving DecidableEq

/-- The meaning of the parts of a function that constant propagation does not look into. -/
structure Sem (I Mem : Type) where
  /-- values of parameters, global variables and the like -/
  start : I → Value
  /-- values of constants -/
  constVal : I → Value
  mem : Mem
  /-- what an instruction may do: values of the operands, memory before, result, memory after -/
  act : I → (I → Value) → Mem → Value → Mem → Prop

/-- A point of an execution: the instructions left in the block, the values defined so far. -/
structure Config (I B Mem : Type) where
  block : B
  rest : List I
  env : I → Option Value
  mem : Mem

variable (f : Func I B) (S : Sem I Mem)

/-- The value an id stands for. -/
def read (env : I → Option Value) (d : I) : Option Value :=
  match f.const d with
  | some _ => some (S.constVal d)
  | none => env d

/-- Instructions of a block after the phis. -/
def body (b : B) : List I := (f.insts b).filter fun i => !f.isPhi i

/-- The target of a switch: the first case with the value, or the default. -/
def target (n : Nat) (dflt : B) (cases : List (Nat × B)) : B :=
  match cases.find? fun c => decide (c.1 = n) with
  | some c => c.2
  | none => dflt

/-- Control goes from `c.block` to `b'`: all the phis there take their values at once. `rd d` is the
id that the code has in the place of `d`. -/
inductive Jump (rd : I → I) (c : Config I B Mem) (b' : B) : Config I B Mem → Prop where
  | mk (env : I → Option Value)
      (phis : ∀ i ∈ f.phis b', ∃ d, (d, c.block) ∈ f.args i ∧ env i = read f S c.env (rd d) ∧ env i ≠ none)
      (others : ∀ i, i ∉ f.phis b' → env i = c.env i) :
      Jump rd c b' ⟨b', body f b', env, c.mem⟩

/-- The value of `i` becomes `x`. -/
def define (env : I → Option Value) (i : I) (x : Value) : I → Option Value :=
  fun j => if j = i then some x else env j

/-- The code of the function executes one instruction. -/
inductive Step (rd : I → I) : Config I B Mem → Config I B Mem → Prop where
  | br {b i rest env m t c'} : f.kind i = .br t → Jump f S rd ⟨b, rest, env, m⟩ t c' →
      Step rd ⟨b, i :: rest, env, m⟩ c'
  | cond {b i rest env m c t e x c'} : f.kind i = .cond c t e → read f S env (rd c) = some (.bool x) →
      Jump f S rd ⟨b, rest, env, m⟩ (if x then t else e) c' →
      Step rd ⟨b, i :: rest, env, m⟩ c'
  | switch {b i rest env m sel dflt cases n c'} : f.kind i = .switch sel dflt cases →
      read f S env (rd sel) = some (.int n) → Jump f S rd ⟨b, rest, env, m⟩ (target n dflt cases) c' →
      Step rd ⟨b, i :: rest, env, m⟩ c'
  | copy {b i rest env m src x} : f.kind i = .copy src → read f S env (rd src) = some x →
      Step rd ⟨b, i :: rest, env, m⟩ ⟨b, rest, define env i x, m⟩
  | assign {b i rest env m a x m'} : f.kind i = .foldable ∨ f.kind i = .assign →
      (∀ d ∈ f.inDefs i, read f S env (rd d) = some (a d)) → S.act i a m x m' →
      Step rd ⟨b, i :: rest, env, m⟩ ⟨b, rest, define env i x, m'⟩
  | effect {b i rest env m a x m'} : f.kind i = .effect →
      (∀ d ∈ f.inDefs i, read f S env (rd d) = some (a d)) → S.act i a m x m' →
      Step rd ⟨b, i :: rest, env, m⟩ ⟨b, rest, env, m'⟩

/-- The beginning: only what is defined outside has a value. -/
def initial : Config I B Mem :=
  ⟨f.entry, body f f.entry, fun d => if f.global d then some (S.start d) else none, S.mem⟩

/-- The points of the executions. -/
inductive Reach (rd : I → I) : Config I B Mem → Prop where
  | start : Reach rd (initial f S)
  | step {c c'} : Reach rd c → Step f S rd c c' → Reach rd c'

/-- The code reads `d` next. -/
def Reads (c : Config I B Mem) (d : I) : Prop :=
  ∃ i rest, c.rest = i :: rest ∧ (d ∈ f.inDefs i ∨
    ∃ b' j, b' ∈ f.succs c.block ∧ j ∈ f.phis b' ∧ (d, c.block) ∈ f.args j ∧ f.terminator i = true)

/-- A function in SSA form, consistently described. -/
structure Valid : Prop where
  prog : Propagator.Spec.WellFormed f.toProg
  phiKind : ∀ i, f.isPhi i = true ↔ f.kind i = .phi
  /-- branches are terminators, and their targets are the successors -/
  br : ∀ i t, f.kind i = .br t → f.terminator i = true ∧ t ≠ f.pseudoExit ∧
    ∀ b, f.block i = some b → t ∈ f.succs b
  cond : ∀ i c t e, f.kind i = .cond c t e → c ∈ f.inDefs i ∧ f.terminator i = true ∧
    t ≠ f.pseudoExit ∧ e ≠ f.pseudoExit ∧ ∀ b, f.block i = some b → t ∈ f.succs b ∧ e ∈ f.succs b
  switch : ∀ i sel dflt cases, f.kind i = .switch sel dflt cases → sel ∈ f.inDefs i ∧
    f.terminator i = true ∧ ∀ t, t = dflt ∨ t ∈ cases.map (·.2) →
      t ≠ f.pseudoExit ∧ ∀ b, f.block i = some b → t ∈ f.succs b
  copy : ∀ i src, f.kind i = .copy src → src ∈ f.inDefs i
  /-- constants, global variables and parameters are not in blocks -/
  consts : ∀ d, f.const d ≠ none → f.block d = none
  globals : ∀ d, f.global d = true → f.block d = none
  /-- constants are declared before the pass if the code uses them -/
  declared : ∀ i d, Propagator.Spec.Uses f.toProg i d → f.const d ≠ none → f.global d = true

/-- Folding is right: it yields constants, and if the operands replaced by constants have these values,
the result can only be the constant found. -/
structure FoldSound : Prop where
  consts : ∀ i m k, f.fold i m = some k → f.const k ≠ none
  value : ∀ i m k a mem x mem', f.kind i = .foldable → f.fold i m = some k →
    (∀ d ∈ f.inDefs i, f.const (m d) ≠ none → a d = S.constVal (m d)) →
    S.act i a mem x mem' → x = S.constVal k

/-- Values of boolean, integer and null constants. -/
structure ConstVals : Prop where
  bool : ∀ k b, f.const k = some (.bool b) → S.constVal k = .bool b
  int : ∀ k n, f.const k = some (.int n) → S.constVal k = .int n
  null : ∀ k, f.const k = some .null → S.constVal k ≠ .bool true ∧ ∀ n, S.constVal k = .int n → n = 0

/-- Selectors of switches have at most 32 bits. -/
def Narrow : Prop :=
  ∀ c, Reach f S id c → ∀ i rest sel dflt cases, c.rest = i :: rest → f.kind i = .switch sel dflt cases →
    (∀ n, read f S c.env sel = some (.int n) → n < 2 ^ 32) ∧ ∀ l ∈ cases, l.1 < 2 ^ 32

/-- Every id is defined before it is used. -/
def Defined : Prop := ∀ c : Config I B Mem, Reach f S id c → ∀ d, Reads f c d → read f S c.env d ≠ none

/-- Types are respected. -/
structure Typed (type : I → Nat) (boolType : Nat) (intType : Nat → Prop) : Prop where
  phi : ∀ i d q, f.kind i = .phi → (d, q) ∈ f.args i → type d = type i
  copy : ∀ i src, f.kind i = .copy src → type src = type i
  fold : ∀ i m k, f.fold i m = some k → type k = type i
  cond : ∀ i c t e, f.kind i = .cond c t e → type c = boolType
  switch : ∀ i sel dflt cases, f.kind i = .switch sel dflt cases → intType (type sel)
  bool : ∀ k, f.const k ≠ none → type k = boolType → f.const k = some .null ∨ ∃ b, f.const k = some (.bool b)
  int : ∀ k, f.const k ≠ none → intType (type k) → f.const k = some .null ∨ ∃ n, f.const k = some (.int n)

/-- Knowing more operands to be constant does not keep an instruction from being folded. -/
def FoldGrows : Prop := ∀ i m m',
  (∀ d ∈ f.inDefs i, m' d = m d ∨ (m d = d ∧ f.const d = none ∧ f.const (m' d) ≠ none)) →
  f.fold i m ≠ none → f.fold i m' ≠ none

end Verif.Ccp.Spec
