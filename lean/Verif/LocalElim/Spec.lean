import Verif.LocalElim.Model
/-!
# Variables, pointers and what instructions do with them

Independent of the pass. Memory is the contents of the variables of the function and the rest. A pointer
is a value; it may point to a variable or into one of its parts, or into the rest.
-/
namespace Verif.LocalElim.Spec
open Verif.SsaExec Verif.LocalElim
variable {I B V R : Type} [DecidableEq I]

/-- Contents of the variables, and the rest of memory. -/
abbrev Mem (I V R : Type) := (I → V) × R

/-- The meaning of what the pass does not look into. -/
structure Base (I B V R : Type) where
  start : I → Option V
  vars : I → V
  rest : R
  /-- the pointer to a variable -/
  addr : I → V
  /-- the variable a pointer points into, if any -/
  points : V → Option I
  /-- what is read through a pointer, from the contents of the variable -/
  get : V → V → V
  /-- contents of the variable after a store through a pointer: pointer, old contents, object -/
  put : V → V → V → V
  /-- what an access chain may compute -/
  chain : I → List V → V → Prop
  outLoad : I → List V → R → V → Prop
  outStore : I → List V → R → R → Prop
  /-- variables whose address no other instruction can get hold of -/
  hidden : I → Bool
  /-- any other instruction: it sees the contents of the variables that are not hidden -/
  act : I → List V → (I → Option V) → R → V → (I → V) → R → Prop
  jump : I → List V → Mem I V R → B → Prop

def Base.seen (S : Base I B V R) (m : I → V) : I → Option V := fun v => if S.hidden v then none else some (m v)

def write (m : I → V) (v : I) (x : V) : I → V := fun u => if u = v then x else m u

/-- What an instruction does. -/
def act (f : Func I B) (S : Base I B V R) (i : I) (a : List V) (m : Mem I V R) (x : V) (m' : Mem I V R) : Prop :=
  match f.kind i, a with
  | .variable, _ => x = S.addr i ∧ m' = m
  | .copy, [y] => x = y ∧ m' = m
  | .chain, y :: ys => S.chain i (y :: ys) x ∧ S.points x = S.points y ∧ m' = m
  | .load, [y] =>
    match S.points y with
    | some v => x = S.get y (m.1 v) ∧ m' = m
    | none => S.outLoad i [y] m.2 x ∧ m' = m
  | .store, [y, w] =>
    match S.points y with
    | some v => m' = (write m.1 v (S.put y (m.1 v) w), m.2)
    | none => S.outStore i [y, w] m.2 m'.2 ∧ m'.1 = m.1
  | .debug, _ => m' = m
  | _, _ => ∃ o, S.act i a (S.seen m.1) m.2 x o m'.2 ∧ m'.1 = fun v => if S.hidden v then m.1 v else o v

def sem (f : Func I B) (S : Base I B V R) : Sem I B V (Mem I V R) where
  start := S.start
  mem := (S.vars, S.rest)
  act := act f S
  jump := S.jump

/-- The pointer to a variable gives access to the whole of it. -/
structure Pointers (S : Base I B V R) : Prop where
  points : ∀ v, S.points (S.addr v) = some v
  get : ∀ v c, S.get (S.addr v) c = c
  put : ∀ v c x, S.put (S.addr v) c x = x

/-- `p` is the variable `v`, or comes from it by `k` access chains and copies. -/
inductive Direct (f : Func I B) : Nat → I → I → Prop where
  | here {v} : f.kind v = .variable → Direct f 0 v v
  | chain {k p q r v} : f.kind q = .chain → f.ops q = p :: r → Direct f k p v → Direct f (k + 1) q v
  | copy {k p q v} : f.kind q = .copy → f.ops q = [p] → Direct f k p v → Direct f (k + 1) q v

/-- The address of `v` is used only to access `v`: by loads, stores through it, access chains, copies. -/
def Private (f : Func I B) (v : I) : Prop :=
  ∀ k p, Direct f k p v → ∀ u ∈ f.insts, (p ∈ f.ops u ∨ ∃ b, (p, b) ∈ f.args u) →
    f.kind u = .load ∨ f.kind u = .chain ∨ f.kind u = .copy ∨ f.kind u = .debug ∨
    (f.kind u = .store ∧ ∀ q w, f.ops u = [q, w] → w ≠ p)

/-- The shape of a function of a valid module. -/
structure WellFormed (f : Func I B) (n : Nat) : Prop where
  blocks : ∀ b, b ∈ f.blocks
  nodup : f.insts.Nodup
  phi : ∀ b, ∀ p ∈ f.phis b, f.kind p = .other ∧ f.ops p = []
  term : ∀ b l t, f.body b = l ++ [t] → f.kind t = .other
  load : ∀ i, f.kind i = .load → ∃ p, f.ops i = [p]
  store : ∀ i, f.kind i = .store → ∃ p w, f.ops i = [p, w]
  copy : ∀ i, f.kind i = .copy → ∃ p, f.ops i = [p]
  chain : ∀ i, f.kind i = .chain → ∃ p r, f.ops i = p :: r
  /-- a store has no result -/
  result : ∀ i ∈ f.insts, ∀ d, (d ∈ f.ops i ∨ ∃ b, (d, b) ∈ f.args i) → f.kind d ≠ .store
  noresult : ∀ i ∈ f.insts, ∀ d, (d ∈ f.ops i ∨ ∃ b, (d, b) ∈ f.args i) → f.kind d ≠ .debug
  inside : ∀ i, f.kind i ≠ .other → i ∈ f.insts
  /-- the fuel is enough for every chain of pointers -/
  deep : ∀ k p v, Direct f k p v → k < n

/-- Logical addressing. A value is `clean` if no hidden variable can be reached through it; `cleanRest` says
the same of the rest of memory. Instructions other than variables, access chains and copies give clean
values when they are given clean values, and pointers to variables of the function are not stored. -/
structure Addressing (f : Func I B) (S : Base I B V R) (clean : V → Prop) (cleanRest : R → Prop) : Prop where
  not_stored : ∀ i ∈ f.insts, f.kind i = .store → ∀ p w, f.ops i = [p, w] → ∀ k v, ¬ Direct f k w v
  /-- the hidden variables are those whose address is used only to access them -/
  hidden : ∀ v, f.target v = true → Private f v → S.hidden v = true
  only : ∀ v, S.hidden v = true → Private f v
  pointer : ∀ y v, clean y → S.points y = some v → S.hidden v = false
  addr : ∀ v, S.hidden v = false → clean (S.addr v)
  start : ∀ d y, S.start d = some y → clean y
  vars : ∀ v, clean (S.vars v)
  rest : cleanRest S.rest
  get : ∀ p c, clean c → clean (S.get p c)
  put : ∀ p c x, clean c → clean x → clean (S.put p c x)
  chain : ∀ i y ys x, S.chain i (y :: ys) x → clean y → clean x
  outLoad : ∀ i a r x, S.outLoad i a r x → cleanRest r → clean x
  outStore : ∀ i p w r r', S.outStore i [p, w] r r' → clean w → cleanRest r → cleanRest r'
  act : ∀ i a seen r x o r', S.act i a seen r x o r' → (∀ y ∈ a, clean y) → (∀ v z, seen v = some z → clean z) →
    cleanRest r → clean x ∧ (∀ v, S.hidden v = false → clean (o v)) ∧ cleanRest r'

/-- A point of an execution before and the corresponding one after. -/
structure Match (f : Func I B) (S : Base I B V R) (gone : I → Bool) (c c' : Config I B V (Mem I V R)) : Prop where
  block : c'.block = c.block
  /-- the same instructions to execute and executed, but for those removed -/
  rest : c'.rest = c.rest.filter fun i => !gone i
  hist : c'.hist = c.hist.filter fun i => !gone i
  env : ∀ d, gone d = false → c'.env d = c.env d
  outside : c'.mem.2 = c.mem.2
  visible : ∀ v, S.hidden v = false → c'.mem.1 v = c.mem.1 v
  /-- at the end of a block all variables have the same contents -/
  variables : ∀ t, c.rest = [t] → c'.mem = c.mem

end Verif.LocalElim.Spec
