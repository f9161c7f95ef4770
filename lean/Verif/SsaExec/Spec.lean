/-!
# Executions of a function in SSA form

A small semantics shared by the passes that replace one id by another: blocks with phis, instructions
that act on a memory, terminators that choose the next block. It says nothing about any pass. The
instructions executed so far are kept, newest first, so that "executed after" can be said.
-/
namespace Verif.SsaExec

/-- What stands in the place of an operand: an id, or an undefined value. -/
inductive Operand (I : Type) where
  | id (d : I)
  | undef
  deriving DecidableEq

/-- The code of a function. -/
structure Code (I B : Type) where
  entry : B
  phis : B → List I
  /-- instructions after the phis; the last one is the terminator -/
  body : B → List I
  ops : I → List (Operand I)
  /-- operands of a phi, each with the block it comes from -/
  args : I → List (Operand I × B)
  /-- targets of a terminator -/
  succs : I → List B

/-- The meaning of the instructions. -/
structure Sem (I B V M : Type) where
  /-- values of constants, parameters and module-scope ids -/
  start : I → Option V
  mem : M
  /-- what an instruction may do: operand values, memory before, result, memory after -/
  act : I → List V → M → V → M → Prop
  /-- where a terminator may go -/
  jump : I → List V → M → B → Prop

/-- A point of an execution. -/
structure Config (I B V M : Type) where
  block : B
  /-- instructions of the block still to execute -/
  rest : List I
  env : I → Option V
  mem : M
  /-- instructions executed so far, newest first -/
  hist : List I

variable {I B V M : Type}

/-- An operand may be read as this value; an undefined value may be read as anything, each time. -/
def Read (env : I → Option V) : Operand I → V → Prop
  | .id d, x => env d = some x
  | .undef, _ => True

inductive ReadAll (env : I → Option V) : List (Operand I) → List V → Prop where
  | nil : ReadAll env [] []
  | cons {o os x xs} : Read env o x → ReadAll env os xs → ReadAll env (o :: os) (x :: xs)

variable [DecidableEq I]

def define (env : I → Option V) (i : I) (x : V) : I → Option V :=
  fun j => if j = i then some x else env j

inductive Step (P : Code I B) (S : Sem I B V M) : Config I B V M → Config I B V M → Prop where
  | act {b i j r env m h a x m'} : ReadAll env (P.ops i) a → S.act i a m x m' →
      Step P S ⟨b, i :: j :: r, env, m, h⟩ ⟨b, j :: r, define env i x, m', i :: h⟩
  | jump {b i env m h a b' env'} : ReadAll env (P.ops i) a → S.jump i a m b' → b' ∈ P.succs i →
      (∀ p ∈ P.phis b', ∃ o x, (o, b) ∈ P.args p ∧ Read env o x ∧ env' p = some x) →
      (∀ d, d ∉ P.phis b' → env' d = env d) →
      Step P S ⟨b, [i], env, m, h⟩ ⟨b', P.body b', env', m, (P.phis b').reverse ++ i :: h⟩

def Start (P : Code I B) (S : Sem I B V M) : Config I B V M :=
  ⟨P.entry, P.body P.entry, S.start, S.mem, []⟩

inductive Reach (P : Code I B) (S : Sem I B V M) : Config I B V M → Prop where
  | start : Reach P S (Start P S)
  | step {c c'} : Reach P S c → Step P S c c' → Reach P S c'

/-! ## Dominance, instruction by instruction -/

/-- All the instructions of a block. -/
def Code.all (P : Code I B) (b : B) : List I := P.phis b ++ P.body b

/-- `y` can come right after `x`. -/
def Edge (P : Code I B) (x y : I) : Prop :=
  (∃ b l r, P.all b = l ++ x :: y :: r) ∨
  (∃ b l b' r, P.body b = l ++ [x] ∧ b' ∈ P.succs x ∧ P.all b' = y :: r)

/-- A path from the first instruction of the function, newest first. -/
inductive Trail (P : Code I B) : List I → Prop where
  | first {x r} : P.all P.entry = x :: r → Trail P [x]
  | next {x y l} : Trail P (x :: l) → Edge P x y → Trail P (y :: x :: l)

/-- On every path to `u`, `d` comes before. -/
def Dom (P : Code I B) (d u : I) : Prop := ∀ h, Trail P (u :: h) → d ∈ h

/-- The last instruction of a block. -/
def IsTerm (P : Code I B) (t : I) : Prop := ∃ b l, P.body b = l ++ [t]

/-- SSA form: the definition of an operand dominates its use; the operand of a phi is used at the end
of the block it comes from. `G` holds of the ids defined outside the function. -/
structure Valid (P : Code I B) (G : I → Prop) : Prop where
  body_ne : ∀ b, P.body b ≠ []
  entry_phis : P.phis P.entry = []
  /-- instructions of the function are not defined outside -/
  inside : ∀ b, ∀ i ∈ P.all b, ¬ G i
  /-- a phi is not an instruction of the body of a block -/
  phi_body : ∀ b b', ∀ i ∈ P.phis b, i ∉ P.body b'
  ops : ∀ b, ∀ i ∈ P.body b, ∀ d, .id d ∈ P.ops i → G d ∨ (Dom P d i ∧ ¬ IsTerm P d)
  args : ∀ b, ∀ p ∈ P.phis b, ∀ d b', (.id d, b') ∈ P.args p →
    ∀ l t, P.body b' = l ++ [t] → b ∈ P.succs t → G d ∨ (Dom P d t ∧ ¬ IsTerm P d)
  /-- a terminator occurs only as the last instruction of a block -/
  term_last : ∀ t, IsTerm P t → ∀ b l r, P.all b = l ++ t :: r → r = []

end Verif.SsaExec
