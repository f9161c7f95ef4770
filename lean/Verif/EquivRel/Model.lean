/-!
# The fuzzer's equivalence relation (`source/fuzz/equivalence_relation.h`)

A disjoint-set forest with path compression.  The class keeps one canonical pointer per value
(up to the equality given by the template arguments), so a pointer is modelled by its value.
The hash maps are modelled as functions; an absent key of `parent_` reads as null (`none`).
`none` as the result of an operation is a failed assertion, a null dereference or divergence.
-/
namespace Verif.EquivRel

variable {α : Type} [DecidableEq α]

/-- The members (equivalence_relation.h:244-264): `owned_values_` (which `value_set_`
    indexes), `parent_`, `children_`. -/
structure State (α : Type) where
  owned : List α
  parent : α → Option α
  children : α → List α

/-- A fresh object. -/
def State.empty : State α := ⟨[], fun _ => none, fun _ => []⟩

/-- Assignment to a map entry. -/
def upd {β : Type} (f : α → β) (a : α) (b : β) : α → β := fun x => if x = a then b else f x

/-- `Register` (equivalence_relation.h:109-126). -/
def register (s : State α) (v : α) : Option (State α) :=
  if v ∈ s.owned then none
  else some ⟨s.owned ++ [v], upd s.parent v (some v), upd s.children v []⟩

/-- The first loop of `Find` (equivalence_relation.h:203-206). -/
def chase (s : State α) (x : α) : Option α :=
  match s.parent x with
  | none => none
  | some p => if p = x then some x else chase s p
partial_fixpoint

/-- The body of the second loop of `Find` (equivalence_relation.h:215-223). -/
def compressStep (s : State α) (result current next : α) : Option (State α) :=
  let children := upd s.children result (s.children result ++ [current])
  if current ∈ children next then
    some ⟨s.owned, upd s.parent current (some result), upd children next ((children next).erase current)⟩
  else none

/-- The second loop of `Find`: path compression (equivalence_relation.h:213-225). -/
def compress (s : State α) (result current : α) : Option (State α) :=
  match s.parent current with
  | none => none
  | some next =>
    if next = result then some s
    else
      match compressStep s result current next with
      | none => none
      | some s' => compress s' result next
partial_fixpoint

/-- `Find` (equivalence_relation.h:193-227): the representative, and the compressed forest. -/
def find (s : State α) (v : α) : Option (α × State α) :=
  if v ∈ s.owned then
    match chase s v with
    | none => none
    | some r =>
      match compress s r v with
      | none => none
      | some s' => some (r, s')
  else none

/-- `MakeEquivalent` (equivalence_relation.h:77-104). -/
def makeEquivalent (s : State α) (a b : α) : Option (State α) :=
  if a ∈ s.owned ∧ b ∈ s.owned then
    if a = b then some s
    else
      match find s a with
      | none => none
      | some (ra, s1) =>
        match find s1 b with
        | none => none
        | some (rb, s2) =>
          if ra ≠ rb then
            some ⟨s2.owned, upd s2.parent ra (some rb), upd s2.children rb (s2.children rb ++ [ra])⟩
          else some s2
  else none

/-- `IsEquivalent` (equivalence_relation.h:168-170).  The order of the two calls is not
    specified in C++; left to right here. -/
def isEquivalent (s : State α) (a b : α) : Option (Bool × State α) :=
  match find s a with
  | none => none
  | some (ra, s1) =>
    match find s1 b with
    | none => none
    | some (rb, s2) => some (decide (ra = rb), s2)

/-- The loop of `GetEquivalenceClass` (equivalence_relation.h:152-161).  The head of `stack` is
    its back. -/
def traverse (s : State α) (stack result : List α) : Option (List α) :=
  match stack with
  | [] => some result
  | item :: rest => traverse s ((s.children item).reverse ++ rest) (result ++ [item])
partial_fixpoint

/-- `GetEquivalenceClass` (equivalence_relation.h:141-163). -/
def equivalenceClass (s : State α) (v : α) : Option (List α × State α) :=
  if v ∈ s.owned then
    match find s v with
    | none => none
    | some (r, s') =>
      match traverse s' [r] [] with
      | none => none
      | some l => some (l, s')
  else none

/-- `GetEquivalenceClassRepresentatives` (equivalence_relation.h:129-137). -/
def representatives (s : State α) : List α := s.owned.filter (fun v => s.parent v = some v)

/-- `GetAllKnownValues` (equivalence_relation.h:173-179). -/
def knownValues (s : State α) : List α := s.owned

/-- A call of the interface.  (`Exists`, `GetAllKnownValues` and
    `GetEquivalenceClassRepresentatives` change nothing.) -/
inductive Op (α : Type) where
  | register (v : α)
  | makeEquivalent (a b : α)
  | find (v : α)
  | isEquivalent (a b : α)
  | equivalenceClass (v : α)

/-- The object after a call. -/
def step (s : State α) : Op α → Option (State α)
  | .register v => register s v
  | .makeEquivalent a b => makeEquivalent s a b
  | .find v => (find s v).map (·.2)
  | .isEquivalent a b => (isEquivalent s a b).map (·.2)
  | .equivalenceClass v => (equivalenceClass s v).map (·.2)

/-- The object after a history of calls. -/
def run (s : State α) : List (Op α) → Option (State α)
  | [] => some s
  | o :: os => match step s o with
    | none => none
    | some s' => run s' os

end Verif.EquivRel
