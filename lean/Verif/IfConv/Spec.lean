import Verif.IfConv.Model

/-!
# Specification: executions of a function (C70)

A machine that knows nothing of the pass. A configuration is taken at the end of the body of a block,
before its terminator. `M` is all that instructions can read and change besides ids: memory, and a log
of what has been output.
-/

namespace Verif.IfConv.Spec

variable {V M : Type}

/-- The meaning of instructions. -/
structure Sem (V M : Type) where
  /-- constants, parameters, ids of the module -/
  start : Id → Option V
  mem : M
  /-- what an instruction may do: operand values, memory before, result, memory after -/
  act : Id → List V → M → V → M → Prop
  /-- where other terminators may go -/
  jump : Id → List V → M → Lab → Prop
  truth : V → Bool

abbrev Env (V : Type) := Id → Option V

def define (env : Env V) (i : Id) (x : V) : Env V := fun j => if j = i then some x else env j

/-- Operands have these values. -/
def Reads (env : Env V) (ids : List Id) (xs : List V) : Prop := ids.map env = xs.map some

/-- Executing the body of a block. -/
inductive Exec (S : Sem V M) : List Inst → Env V → M → Env V → M → Prop where
  | nil {e m} : Exec S [] e m e m
  | op {i ops is e m xs x m1 e2 m2} : Reads e ops xs → S.act i xs m x m1 →
      Exec S is (define e i x) m1 e2 m2 → Exec S (.op i ops :: is) e m e2 m2
  | select {i c t f is e m vc vt vf e2 m2} : e c = some vc → e t = some vt → e f = some vf →
      Exec S is (define e i (if S.truth vc then vt else vf)) m e2 m2 →
      Exec S (.select i c t f :: is) e m e2 m2

/-- The value of a phi on arrival from block `p`. -/
def phiVal (env : Env V) (p : Lab) (φ : Phi) : Option V :=
  match φ.args.find? (·.2 = p) with
  | some a => env a.1
  | none => none

/-- All phis at once. -/
def phiEnv (env : Env V) (p : Lab) (φs : List Phi) : Env V := fun d =>
  match φs.find? (·.id = d) with
  | some φ => phiVal env p φ
  | none => env d

/-- A terminator goes to this block. -/
inductive Goes (S : Sem V M) (env : Env V) (m : M) : Term → Lab → Prop where
  | br {b} : Goes S env m (.br b) b
  | cond {c t f v} : env c = some v → Goes S env m (.cond c t f) (if S.truth v then t else f)
  | multi {tag ops ts xs b} : Reads env ops xs → S.jump tag xs m b → b ∈ ts →
      Goes S env m (.multi tag ops ts) b

structure Config (V M : Type) where
  block : Lab
  env : Env V
  mem : M

/-- From the end of one block to the end of the next. -/
inductive Step (S : Sem V M) (fn : Fn) : Config V M → Config V M → Prop where
  | mk {b e m b' e' m'} : Goes S e m (fn.block b).term b' →
      (∀ φ ∈ (fn.block b').phis, phiVal e b φ ≠ none) →
      Exec S (fn.block b').body (phiEnv e b (fn.block b').phis) m e' m' →
      Step S fn ⟨b, e, m⟩ ⟨b', e', m'⟩

/-- Configurations at the end of the first block. -/
def Begins (S : Sem V M) (fn : Fn) (c : Config V M) : Prop :=
  c.block = fn.entry ∧ Exec S (fn.block fn.entry).body S.start S.mem c.env c.mem

/-- Reachable configurations, with the blocks passed, newest first. -/
inductive Reach (S : Sem V M) (fn : Fn) : List Lab → Config V M → Prop where
  | start {c} : Begins S fn c → Reach S fn [fn.entry] c
  | step {l c c'} : Reach S fn l c → Step S fn c c' → Reach S fn (c'.block :: l) c'

/-! ## Graphs -/

/-- A path from the first block, newest first. -/
inductive Path (fn : Fn) : List Lab → Prop where
  | entry : Path fn [fn.entry]
  | next {a b l} : Path fn (a :: l) → b ∈ fn.succs a → Path fn (b :: a :: l)

/-- A walk from `a` to `b`, all of whose blocks (with both ends) are in `l`, newest first. -/
inductive Walk (fn : Fn) : Lab → Lab → List Lab → Prop where
  | nil (a) : Walk fn a a [a]
  | next {a b c l} : Walk fn a b l → c ∈ fn.succs b → Walk fn a c (c :: l)

/-- `a` is on every path to `b`. -/
def Dominates (fn : Fn) (a b : Lab) : Prop := ∀ l, Path fn (b :: l) → a ∈ b :: l

def Reachable (fn : Fn) (b : Lab) : Prop := ∃ l, Path fn (b :: l)

/-- Every cycle has a block that dominates all of it. -/
def Reducible (fn : Fn) : Prop :=
  ∀ a l, Walk fn a a l → 1 < l.length → Reachable fn a → ∃ h ∈ l, ∀ b ∈ l, Dominates fn h b

/-- Ids defined by an instruction. -/
def instId : Inst → Id
  | .op i _ => i
  | .select i _ _ _ => i

/-- Ids defined in a block. -/
def defs (blk : Block) : List Id := blk.phis.map (·.id) ++ blk.body.map instId

/-- The analyses say what they should. -/
structure Right (fn : Fn) (A : Info) : Prop where
  dom : ∀ a b, Reachable fn b → (A.dom a b = true ↔ Dominates fn a b)
  common : ∀ a b c, A.common a b = some c → Reachable fn a ∧ Reachable fn b ∧
    Dominates fn c a ∧ Dominates fn c b ∧ ∀ d, Dominates fn d a → Dominates fn d b → Dominates fn d c
  defBlock : ∀ d b, d ∈ defs (fn.block b) → A.defBlock d = some b

/-- `d` has a value at the end of block `b`. -/
def Avail (S : Sem V M) (fn : Fn) (d : Id) (b : Lab) : Prop :=
  (S.start d ≠ none ∧ ∀ b', d ∉ defs (fn.block b')) ∨ ∃ b', d ∈ defs (fn.block b') ∧ Dominates fn b' b

/-- The parts of the rules of SSA form that matter here. -/
structure Valid (S : Sem V M) (fn : Fn) : Prop where
  entry_phis : (fn.block fn.entry).phis = []
  entry_preds : ∀ b, fn.entry ∉ fn.succs b
  labels : ∀ b, fn.succs b ≠ [] → b ∈ fn.labels
  /-- each phi has one value for each predecessor -/
  phi_preds : ∀ b, ∀ φ ∈ (fn.block b).phis, (φ.args.map (·.2)).Nodup ∧
    ∀ p, p ∈ φ.args.map (·.2) ↔ b ∈ fn.succs p
  phi_nodup : ∀ b, ((fn.block b).phis.map (·.id)).Nodup
  /-- the values of phis and the conditions of branches are available -/
  phi_avail : ∀ b, ∀ φ ∈ (fn.block b).phis, ∀ a ∈ φ.args, Avail S fn a.1 a.2
  cond_avail : ∀ b c t f, (fn.block b).term = .cond c t f → Avail S fn c b

/-- The two sides of a selection are apart: each side that is not empty is below the branch, and no
block can be reached from both sides without going through the branch or the end. -/
structure Apart (fn : Fn) (c t f b : Lab) : Prop where
  belowT : t ≠ b → Dominates fn c t ∧ t ≠ c
  belowF : f ≠ b → Dominates fn c f ∧ f ≠ c
  apart : ∀ x l l', Walk fn t x l → c ∉ l → b ∉ l → Walk fn f x l' → c ∉ l' → b ∉ l' → False

/-- All flattened selections have sides that are apart. -/
def SidesApart (fn : Fn) : Prop :=
  ∀ c x t f b, (fn.block c).term = .cond x t f → (fn.block c).merge = some (.selection b false) →
    Apart fn c t f b

end Verif.IfConv.Spec
