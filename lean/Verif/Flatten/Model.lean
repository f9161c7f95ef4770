/-!
# Flattening decoration groups

Models `FlattenDecorationPass::Process` (`source/opt/flatten_decoration_pass.cpp:32-162`): the
annotation instructions and the names of a module. Everything else in the module is untouched.
-/
namespace Verif.Flatten

abbrev Id := Nat
abbrev Word := Nat

/-- Annotation instructions (`IsAnnotationInst`, reflect.h:42-49). A decoration is given by its words. -/
inductive Ann where
  /-- `OpDecorationGroup` -/
  | group (g : Id)
  /-- `OpDecorate` -/
  | decorate (t : Id) (d : List Word)
  /-- `OpMemberDecorate` -/
  | member (t : Id) (m : Word) (d : List Word)
  /-- `OpGroupDecorate` -/
  | groupDecorate (g : Id) (ts : List Id)
  /-- `OpGroupMemberDecorate`: the words after the group -/
  | groupMember (g : Id) (ws : List Word)
  /-- `OpDecorateId`, `OpDecorateString`, `OpMemberDecorateString`, … -/
  | other (op : Nat) (t : Id) (d : List Word)
  deriving DecidableEq

/-- Instructions of the section of names (`IsDebug2Inst`, reflect.h:33-35). -/
inductive Name where
  /-- `OpName` -/
  | name (t : Id) (s : String)
  /-- `OpMemberName` -/
  | member (t : Id) (m : Word) (s : String)
  deriving DecidableEq

structure Mod where
  anns : List Ann
  names : List Name
  deriving DecidableEq

/-- `group_ids` after the first pass (flatten_decoration_pass.cpp:50-54). -/
def groupIds (as : List Ann) : List Id :=
  as.filterMap (fun a => match a with | .group g => some g | _ => none)

/-- `normal_uses[g]` after the first pass (flatten_decoration_pass.cpp:55-60); empty if there is no entry. -/
def normalUses (as : List Ann) (g : Id) : List Id :=
  as.flatMap (fun a => match a with | .groupDecorate h ts => if h = g then ts else [] | _ => [])

/-- The words an instruction adds to `member_uses[g]` (flatten_decoration_pass.cpp:61-66). -/
def memberWords (g : Id) : Ann → List Word
  | .groupMember h ws => if h = g then ws else []
  | _ => []

/-- `member_uses[g]` after the first pass (flatten_decoration_pass.cpp:61-66); empty if there is no entry. -/
def memberUses (as : List Ann) (g : Id) : List Word :=
  as.flatMap (memberWords g)

/-- The sequence of pairs (flatten_decoration_pass.cpp:101-107). `none`: the assertion at 103 fails, or the
last pair is read past the end. -/
def pairs : List Word → Option (List (Id × Word))
  | [] => some []
  | [_] => none
  | t :: m :: r => (pairs r).map ((t, m) :: ·)

/-- What one instruction is replaced by in the second pass (flatten_decoration_pass.cpp:76-140). -/
def replace (as : List Ann) : Ann → Option (List Ann)
  | .group _ => some []
  | .groupDecorate _ _ => some []
  | .groupMember _ _ => some []
  | .decorate g d => do
    let ns := (normalUses as g).map (fun t => Ann.decorate t d)
    let ps ← pairs (memberUses as g)
    let ms := ps.map (fun p => Ann.member p.1 p.2 d)
    if ns ++ ms = [] ∧ g ∉ groupIds as then some [.decorate g d] else some (ns ++ ms)
  | a => some [a]

/-- The second pass (flatten_decoration_pass.cpp:72-141): the iterator goes over the instructions there
were, passing over those it inserts. -/
def flatten (as : List Ann) : List Ann → Option (List Ann)
  | [] => some []
  | a :: r => do
    let x ← replace as a
    let y ← flatten as r
    some (x ++ y)

/-- The loop over the names (flatten_decoration_pass.cpp:147-159): instructions before and after the
iterator. The iterator is moved only at an `OpName`. The number counts turns; `none`: not finished. -/
def names (groups : List Id) : Nat → List Name → List Name → Option (List Name)
  | _, done, [] => some done
  | 0, _, _ :: _ => none
  | n + 1, done, .name t s :: r =>
    if t ∈ groups then names groups n done r else names groups n (done ++ [.name t s]) r
  | n + 1, done, .member t m s :: r => names groups n done (.member t m s :: r)

/-- What can happen. -/
inductive Result where
  | done (m : Mod)
  /-- an assertion fails or memory is read out of bounds -/
  | undefined
  /-- not finished after that many turns -/
  | running
  deriving DecidableEq

/-- `FlattenDecorationPass::Process` (flatten_decoration_pass.cpp:32-162), for so many turns of the loop over
the names. -/
def run (n : Nat) (m : Mod) : Result :=
  match flatten m.anns m.anns with
  | none => .undefined
  | some as =>
    if groupIds m.anns = [] then .done ⟨as, m.names⟩
    else match names (groupIds m.anns) n [] m.names with
      | some ns => .done ⟨as, ns⟩
      | none => .running

end Verif.Flatten
