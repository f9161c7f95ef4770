/-!
# Resolving conflicts of bindings

`source/opt/resolve_binding_conflicts_pass.cpp`.
-/
namespace Verif.Bindings

/-- Types as `unwrap` looks at them; `base` with the opcode of any other type. -/
inductive Ty where
  | pointer (to : Ty)
  | array (of : Ty)
  | runtimeArray (of : Ty)
  | base (opcode : Nat)
deriving DecidableEq

/-- `unwrap`, resolve_binding_conflicts_pass.cpp:95-112: the opcode of the type found. -/
def unwrap : Ty → Nat
  | .pointer t => unwrap t
  | .array t => unwrap t
  | .runtimeArray t => unwrap t
  | .base o => o

/-- OpTypeSampler. -/
def samplerOp : Nat := 26

/-- `VarBindingInfo`, resolve_binding_conflicts_pass.cpp:39-51. `first`: the binding number in the
module when the pass starts; the current numbers are a separate function, since the pass changes
them. -/
structure Var where
  id : Nat
  set : Nat
  ty : Ty
  first : Nat
deriving DecidableEq

/-- The decorations of a variable. -/
inductive Deco where
  | set (n : Nat)
  | binding (n : Nat)
  | other

/-- An OpVariable among the types and values, with its type and decorations (no decoration groups,
as the pass assumes). -/
structure Decl where
  id : Nat
  ty : Ty
  decos : List Deco

/-- The loop over the decorations, resolve_binding_conflicts_pass.cpp:193-207. -/
def scan (ds : List Deco) : Option Nat × Option Nat :=
  ds.foldl (fun acc d => match d with
    | .set n => (some n, acc.2)
    | .binding n => (acc.1, some n)
    | .other => acc) (none, none)

/-- `GetVarBindings`, resolve_binding_conflicts_pass.cpp:187-215. -/
def getVars (ds : List Decl) : List Var :=
  ds.filterMap fun d => match scan d.decos with
    | (some s, some b) => some ⟨d.id, s, d.ty, b⟩
    | _ => none

/-- The module. `users`: the function of the block of each user of a variable, `none` for a user
outside of blocks. `calls`: the functions a function calls, in the order the set of callees is
walked through. `keys`: the descriptor sets in the map of a function, in the order it is walked
through. -/
structure Mod where
  decls : List Decl
  users : Nat → List (Option Nat)
  calls : Nat → List Nat
  entries : List Nat
  keys : Nat → List Nat

def Mod.vars (m : Mod) : List Var := getVars m.decls

/-- `Less`, resolve_binding_conflicts_pass.cpp:80-129; `b`: the current binding numbers. -/
def less (b : Var → Nat) (x y : Var) : Bool :=
  if b x < b y then true
  else if b x > b y then false
  else if unwrap x.ty = unwrap y.ty then decide (x.id < y.id)
  else if unwrap x.ty = samplerOp then false
  else if unwrap y.ty = samplerOp then true
  else decide (x.id < y.id)

/-- `used_vars`: function, descriptor set, variables. A set that is not in the map has no
variables. -/
abbrev Used := Nat → Nat → List Var

/-- One user of a variable, resolve_binding_conflicts_pass.cpp:266-275. -/
def useOne (v : Var) (acc : Used × List Nat) (u : Option Nat) : Used × List Nat :=
  match u with
  | none => acc
  | some f =>
    if f ∈ acc.2 then acc
    else (fun g s => if g = f ∧ s = v.set then acc.1 g s ++ [v] else acc.1 g s, f :: acc.2)

/-- Variables directly used by functions, resolve_binding_conflicts_pass.cpp:262-276. -/
def direct (m : Mod) : Used :=
  m.vars.foldl (fun t v => ((m.users v.id).foldl (useOne v) (t, [])).1) (fun _ _ => [])

/-- `std::stable_sort` by insertion; the result of a stable sort is determined by the order. -/
def insertSorted (lt : Var → Var → Bool) (x : Var) : List Var → List Var
  | [] => [x]
  | y :: l => if lt y x then y :: insertSorted lt x l else x :: y :: l

def stableSort (lt : Var → Var → Bool) : List Var → List Var
  | [] => []
  | x :: l => insertSorted lt x (stableSort lt l)

/-- `std::merge` up to the place of the first element of the first list; `k` merges the rest. -/
def mergeRow (lt : Var → Var → Bool) (x : Var) (k : List Var → List Var) : List Var → List Var
  | [] => x :: k []
  | y :: ys => if lt y x then y :: mergeRow lt x k ys else x :: k (y :: ys)

/-- `std::merge`: takes from the second list where its first element is less. -/
def mergeBy (lt : Var → Var → Bool) : List Var → List Var → List Var
  | [], ys => ys
  | x :: xs, ys => mergeRow lt x (mergeBy lt xs) ys

/-- `std::unique` with `resize`. -/
def unique : List Var → List Var
  | x :: y :: l => if x = y then unique (y :: l) else x :: unique (y :: l)
  | l => l

/-- `Merge` for one descriptor set, resolve_binding_conflicts_pass.cpp:219-232: nothing is done for
sets that are not in the source. -/
def mergeInto (lt : Var → Var → Bool) (sink src : List Var) : List Var :=
  if src = [] then sink else unique (mergeBy lt src sink)

/-- `CallGraph::Visit`, resolve_binding_conflicts_pass.cpp:166-175, with the functions visited and
the order; `none` when the depth does not suffice. -/
def visit (calls : Nat → List Nat) : Nat → Nat → List Nat × List Nat → Option (List Nat × List Nat)
  | 0, _, _ => none
  | n + 1, f, s =>
    if f ∈ s.1 then some s
    else match (calls f).foldlM (fun s g => visit calls n g s) (f :: s.1, s.2) with
      | none => none
      | some r => some (r.1, r.2 ++ [f])

/-- The visits of the entry points, resolve_binding_conflicts_pass.cpp:156-160. -/
def visitOrder (m : Mod) (depth : Nat) : Option (List Nat) :=
  (m.entries.foldlM (fun s e => visit m.calls depth e s) ([], [])).map fun r => r.2

/-- The body of the loop over callers, resolve_binding_conflicts_pass.cpp:288-293. -/
def propagate (lt : Var → Var → Bool) (calls : Nat → List Nat) (t : Used) (f : Nat) : Used :=
  (calls f).foldl (fun t g => fun h s => if h = f then mergeInto lt (t f s) (t g s) else t h s) t

/-- The lists of variables per function and set, resolve_binding_conflicts_pass.cpp:262-293. -/
def collect (m : Mod) (order : List Nat) : Used :=
  order.foldl (propagate (less Var.first) m.calls)
    (fun f s => stableSort (less Var.first) (direct m f s))

/-- `ep_bindings`, resolve_binding_conflicts_pass.cpp:304-312. -/
def epBindings (m : Mod) (t : Used) : List (List Var) :=
  m.entries.flatMap fun e => (m.keys e).map (t e)

/-- `updateBinding`, resolve_binding_conflicts_pass.cpp:50. -/
def upd (b : Var → Nat) (v : Var) (n : Nat) : Var → Nat := fun w => if w = v then n else b w

/-- `ResolveConflicts`, resolve_binding_conflicts_pass.cpp:238-248; numbers have 32 bits. -/
def resolve : List Var → (Var → Nat) → (Var → Nat) × Bool
  | x :: y :: l, b =>
    if b x ≥ b y then ((resolve (y :: l) (upd b y ((b x + 1) % 2 ^ 32))).1, true)
    else resolve (y :: l) b
  | _, b => (b, false)

/-- The body of the outer loop, resolve_binding_conflicts_pass.cpp:316-319. -/
def round (ls : List (List Var)) (b : Var → Nat) : (Var → Nat) × Bool :=
  ls.foldl (fun acc l => ((resolve l acc.1).1, acc.2 || (resolve l acc.1).2)) (b, false)

/-- The loop, resolve_binding_conflicts_pass.cpp:313-321; `none` while it goes on. -/
def loop (ls : List (List Var)) : Nat → (Var → Nat) → Bool → Option ((Var → Nat) × Bool)
  | 0, _, _ => none
  | n + 1, b, modified =>
    if (round ls b).2 then loop ls n (round ls b).1 true else some ((round ls b).1, modified)

/-- `Process`, resolve_binding_conflicts_pass.cpp:250-325: binding numbers and whether it reports a
change, when `fuel` suffices for the depth of calls and the number of rounds. -/
def process (m : Mod) (fuel : Nat) : Option ((Var → Nat) × Bool) :=
  match visitOrder m fuel with
  | none => none
  | some order => loop (epBindings m (collect m order)) fuel Var.first false

end Verif.Bindings
