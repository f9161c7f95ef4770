import Verif.Adce.Model
/-!
# Executions of a function, and structured control flow

What the properties talk about, without any notion of live or dead: how a function runs, what an
observer of the run sees, and which functions are valid and structured.
-/
namespace Verif.Adce.Spec

/-- Values: `num` for anything but addresses; an address is a variable and a place in it. -/
inductive Val (D P : Type) where
  | num (x : D)
  | ptr (v : Id) (q : P)

abbrev Env (D P : Type) := Id → Option (Val D P)
abbrev Mem (C : Type) := Id → C

/-- The meaning of the instructions, on data `D`, places `P`, contents of variables `C`, and events
`E`. -/
structure Sem (D P C E : Type) where
  /-- constants and parameters -/
  start : Env D P
  /-- the whole of a variable -/
  here : P
  mem : Mem C
  value : Id → List (Val D P) → D → Prop
  extend : Id → P → List (Val D P) → P → Prop
  get : Id → C → P → D → Prop
  set : Id → C → P → D → C
  /-- instructions with an effect: operands, the operands they read memory through, memory before,
  result, memory after, and what an observer sees -/
  eff : Id → List (Val D P) → List (Val D P) → Mem C → D → Mem C → E → Prop
  /-- where a branch on a value may go -/
  choose : Id → Val D P → Id → Prop

variable {D P C E : Type}

def define (env : Env D P) (i : Id) (x : Val D P) : Env D P := fun j => if j = i then some x else env j

def write (m : Mem C) (v : Id) (c : C) : Mem C := fun w => if w = v then c else m w

/-- The operands have these values. -/
def Reads (env : Env D P) (ops : List Id) (xs : List (Val D P)) : Prop := ops.map env = xs.map some

/-- Executing one instruction that is not a phi. -/
inductive Act (S : Sem D P C E) : Inst → Env D P → Mem C → Env D P → Mem C → List E → Prop where
  | chain {i b idx env m v q xs q'} : env b = some (.ptr v q) → Reads env idx xs → S.extend i q xs q' →
      Act S ⟨i, .chain b idx⟩ env m (define env i (.ptr v q')) m []
  | load {i p env m v q x} : env p = some (.ptr v q) → S.get i (m v) q x →
      Act S ⟨i, .load p⟩ env m (define env i (.num x)) m []
  | store {i p w env m v q x} : env p = some (.ptr v q) → env w = some (.num x) →
      Act S ⟨i, .store p w⟩ env m env (write m v (S.set i (m v) q x)) []
  | copy {i t s env m v q v' q' x} : env t = some (.ptr v q) → env s = some (.ptr v' q') →
      S.get i (m v') q' x → Act S ⟨i, .copy t s⟩ env m env (write m v (S.set i (m v) q x)) []
  | pure {i ops env m xs x} : Reads env ops xs → S.value i xs x →
      Act S ⟨i, .pure ops⟩ env m (define env i (.num x)) m []
  | effect {i ops rd env m xs rs x m' e} : Reads env ops xs → Reads env rd rs → S.eff i xs rs m x m' e →
      Act S ⟨i, .effect ops rd⟩ env m (define env i (.num x)) m' [e]
  | call {i ops env m xs x m' e} : Reads env ops xs → S.eff i xs xs m x m' e →
      Act S ⟨i, .call ops⟩ env m (define env i (.num x)) m' [e]

/-- Where the terminator of a block may go. -/
inductive Goes (S : Sem D P C E) (b : Id) (env : Env D P) : Term → Id → Prop where
  | br {t} : Goes S b env (.br t) t
  | choice {c ts x t} : env c = some x → t ∈ ts → S.choose b x t → Goes S b env (.choice c ts) t

/-- The values a terminator leaves the function with. -/
inductive Leaves (env : Env D P) : Term → List (Val D P) → Prop where
  | exit {ops xs} : Reads env ops xs → Leaves env (.exit ops) xs
  | undef {x} : Leaves env .exitUndef [x]

def isPhi (i : Inst) : Bool := match i.kind with | .phi _ => true | _ => false

/-- The instructions of a block after its phis. -/
def body (b : Block) : List Inst := b.insts.filter (fun i => !isPhi i)

/-- A point of an execution. -/
inductive State (D P C E : Type) where
  /-- in a block, with instructions still to execute before the terminator, and the events so far -/
  | run (b : Id) (rest : List Inst) (env : Env D P) (m : Mem C) (tr : List E)
  | done (xs : List (Val D P)) (m : Mem C) (tr : List E)

/-- The events so far. -/
def State.trace : State D P C E → List E
  | .run _ _ _ _ tr => tr
  | .done _ _ tr => tr

inductive Step (F : Func) (S : Sem D P C E) : State D P C E → State D P C E → Prop where
  | act {b i r env m tr env' m' e} : Act S i env m env' m' e →
      Step F S (.run b (i :: r) env m tr) (.run b r env' m' (tr ++ e))
  | jump {b B t T env env' m tr} : F.block b = some B → Goes S b env B.term t → F.block t = some T →
      (∀ p ∈ T.insts, ∀ args, p.kind = .phi args → ∃ o, (o, b) ∈ args ∧ env' p.id = env o) →
      (∀ d, (∀ p ∈ T.insts, isPhi p = true → p.id ≠ d) → env' d = env d) →
      Step F S (.run b [] env m tr) (.run t (body T) env' m tr)
  | exit {b B env m tr xs} : F.block b = some B → Leaves env B.term xs →
      Step F S (.run b [] env m tr) (.done xs m tr)

inductive Steps (F : Func) (S : Sem D P C E) : State D P C E → State D P C E → Prop where
  | refl {c} : Steps F S c c
  | step {c d e} : Step F S c d → Steps F S d e → Steps F S c e

/-- Values at the start: a variable is its address. -/
def startEnv (F : Func) (S : Sem D P C E) : Env D P :=
  fun i => if (F.vars.lookup i).isSome then some (.ptr i S.here) else S.start i

/-- An execution begins at the first block. -/
inductive Reach (F : Func) (S : Sem D P C E) : State D P C E → Prop where
  | start {b bs} : F.order = b :: bs → Reach F S (.run b.id (body b) (startEnv F S) S.mem [])
  | step {c d} : Reach F S c → Step F S c d → Reach F S d

/-- A variable only this function can touch: one of its own, or one of the Private or Workgroup
storage class when the function is an entry point that calls nothing. -/
def Own (F : Func) (v : Id) : Prop :=
  F.vars.lookup v = some .function ∨
  (F.vars.lookup v = some .shared ∧ F.isEntry = true ∧ ∀ i ∈ F.insts, ∀ ops, i.kind ≠ .call ops)

/-- What is assumed of the meaning of the instructions: only ids from outside the function have a
value at the start, pointer parameters do not point to the function's own variables, and an instruction with an effect sees and changes own variables only
through the addresses it is given. -/
structure Sem.Fits (S : Sem D P C E) (F : Func) : Prop where
  start : ∀ i v q, S.start i = some (.ptr v q) → ¬ Own F v
  outside : ∀ i ∈ F.insts, S.start i.id = none
  frame : ∀ i xs rs m x m' e m₂ (A : Id → Prop), S.eff i xs rs m x m' e →
    (∀ v, ¬ Own F v → A v) → (∀ v q, .ptr v q ∈ rs → A v) → (∀ v, A v → m v = m₂ v) →
    ∃ m₂', S.eff i xs rs m₂ x m₂' e ∧ ∀ v, A v → m' v = m₂' v

/-! ## Valid functions -/

/-- An id something defines. -/
def Declared (F : Func) (o : Id) : Prop :=
  (∃ i ∈ F.insts, i.id = o) ∨ (F.vars.lookup o).isSome ∨ o ∈ F.params.map (·.1) ∨ o ∈ F.consts

/-- An id that stands for an address. -/
def Address (F : Func) (o : Id) : Prop :=
  (F.vars.lookup o).isSome ∨ F.params.lookup o = some true ∨
    ∃ i ∈ F.insts, i.id = o ∧ ∃ b idx, i.kind = .chain b idx

def Label (F : Func) (b : Id) : Prop := ∃ B ∈ F.order, B.id = b

/-- The parts of the validity of a module that matter here. -/
structure Valid (F : Func) : Prop where
  labels : (F.order.map (·.id)).Nodup
  ids : (F.insts.map (·.id)).Nodup
  vars : ∀ i ∈ F.insts, F.vars.lookup i.id = none
  ops : ∀ i ∈ F.insts, ∀ o ∈ i.kind.ops, Declared F o
  reads : ∀ i ∈ F.insts, ∀ ops rd, i.kind = .effect ops rd → ∀ o ∈ rd, o ∈ ops
  phi_labels : ∀ i ∈ F.insts, ∀ b ∈ i.kind.labels, Label F b
  /-- without variable pointers, no phi yields an address -/
  phi_ops : ∀ i ∈ F.insts, ∀ args, i.kind = .phi args → ∀ o ∈ i.kind.ops, ¬ Address F o
  term_ops : ∀ B ∈ F.order, ∀ o ∈ B.term.ops, Declared F o
  targets : ∀ B ∈ F.order, ∀ t ∈ B.term.targets, Label F t
  merges : ∀ B ∈ F.order, ∀ g, B.merge = some g → ∀ t ∈ g.labels, Label F t
  sel_term : ∀ B ∈ F.order, ∀ m, B.merge = some (.sel m) → ∃ c ts, B.term = .choice c ts
  loop_term : ∀ B ∈ F.order, ∀ m k, B.merge = some (.loop m k) → B.term.targets ≠ []
  /-- the base of an access chain comes before it in the order -/
  bases : ∀ l r i b idx, F.insts = l ++ i :: r → i.kind = .chain b idx → ∀ j ∈ i :: r, j.id ≠ b

/-- A phi has one value for each block that branches to it. -/
def PhisComplete (F : Func) : Prop :=
  ∀ B ∈ F.order, ∀ T ∈ F.order, T.id ∈ B.term.targets → ∀ i ∈ T.insts, ∀ args, i.kind = .phi args →
    ∃ o, (o, B.id) ∈ args ∧ ∀ o', (o', B.id) ∈ args → o' = o

/-! ## Structured control flow -/

/-- Where a block stands in the structured order. -/
def pos (F : Func) (b : Id) : Nat := (F.order.map (·.id)).idxOf b

/-- The block `b` stands between the header `h` and the merge block of its construct. -/
def Inside (F : Func) (h b : Id) : Prop :=
  ∃ H ∈ F.order, H.id = h ∧ ∃ g, H.merge = some g ∧ pos F h < pos F b ∧ pos F b < pos F g.block

/-- The rules of structured control flow, with the constructs read off the structured order. -/
structure Structured (F : Func) : Prop where
  merge_after : ∀ H ∈ F.order, ∀ g, H.merge = some g → pos F H.id < pos F g.block
  nested : ∀ H ∈ F.order, ∀ g, H.merge = some g → ∀ K ∈ F.order, ∀ k, K.merge = some k →
    Inside F H.id K.id → pos F k.block < pos F g.block
  /-- a branch out of a construct goes to its merge block, or breaks out of a construct around it, or
  continues the innermost loop -/
  leave : ∀ B ∈ F.order, ∀ t ∈ B.term.targets, ∀ H ∈ F.order, ∀ g, H.merge = some g →
    (H.id = B.id ∨ Inside F H.id B.id) → t ≠ H.id → ¬ Inside F H.id t →
    t = g.block ∨ ∃ O ∈ F.order, Inside F O.id H.id ∧
      ((∃ k, O.merge = some k ∧ t = k.block) ∨
       (∃ m, O.merge = some (.loop m t) ∧
        ∀ L ∈ F.order, L.isLoop = true → (L.id = B.id ∨ Inside F L.id B.id) → ¬ Inside F O.id L.id))
  /-- a branch back to the header of a construct makes it a loop -/
  back : ∀ B ∈ F.order, ∀ H ∈ F.order, H.id ∈ B.term.targets → H.merge ≠ none →
    (H.id = B.id ∨ Inside F H.id B.id) → H.isLoop = true

/-! ## Reasons to keep an instruction -/

/-- The address `p` is made from the address `v`. -/
inductive From (F : Func) (v : Id) : Id → Prop where
  | self : From F v v
  | chain {p : Id} {u : Inst} : From F v p → u ∈ F.insts → (∃ b idx, u.kind = .chain b idx) →
      p ∈ u.kind.ops → From F v u.id

/-- The address `p` leads into `v`: `v` itself, or an access chain with a base that does. -/
inductive Within (F : Func) (v : Id) : Id → Prop where
  | self : Within F v v
  | chain {b : Id} {idx : List Id} {u : Inst} : Within F v b → u ∈ F.insts → u.kind = .chain b idx →
      Within F v u.id

/-- The instruction reads memory through the address `p`. -/
inductive ReadsThrough : Kind → Id → Prop where
  | load {p} : ReadsThrough (.load p) p
  | copy {t s} : ReadsThrough (.copy t s) s
  | effect {ops rd p} : p ∈ rd → ReadsThrough (.effect ops rd) p
  | call {ops p} : p ∈ ops → ReadsThrough (.call ops) p

end Verif.Adce.Spec
