import Verif.IList.Model

/-! # What the operations on intrusive lists mean: lists of nodes -/
namespace Verif.IList.Spec
open Verif.IList (upd)

/-- The lists that exist, with their elements in order, and the nodes that exist. -/
structure State where
  lists : Nat → Option (List Nat)
  nodes : Nat → Bool

def State.empty : State := ⟨fun _ => none, fun _ => false⟩

/-- The node `a` is in some list. -/
def State.InList (T : State) (a : Nat) : Prop := ∃ l xs, T.lists l = some xs ∧ a ∈ xs

/-- `a` is not in use. -/
def State.Fresh (T : State) (a : Nat) : Prop := T.lists a = none ∧ T.nodes a = false

/-- `a` is a position: an element of a list, or the end of a list. -/
def State.Pos (T : State) (a : Nat) : Prop := (T.lists a).isSome ∨ T.InList a

def without (n : Nat) (xs : List Nat) : List Nat := xs.filter (fun a => decide (a ≠ n))

/-- Insert the sequence `ys` just before / after the element `pos`, if it is there. -/
def insBefore (ys : List Nat) (pos : Nat) : List Nat → List Nat
  | [] => []
  | a :: xs => if a = pos then ys ++ a :: xs else a :: insBefore ys pos xs

def insAfter (ys : List Nat) (pos : Nat) : List Nat → List Nat
  | [] => []
  | a :: xs => if a = pos then a :: ys ++ xs else a :: insAfter ys pos xs

/-- Take `n` out of whatever list it is in. -/
def remove (n : Nat) (T : State) : State :=
  { T with lists := fun l => (T.lists l).map (without n) }

/-- Put the sequence before the position; the end of a list is identified with the list. -/
def putBefore (ys : List Nat) (pos : Nat) (T : State) : State :=
  { T with lists := fun l => (T.lists l).map (fun xs => if l = pos then xs ++ ys else insBefore ys pos xs) }

/-- Put the sequence after the position; after the end of a list means at its start. -/
def putAfter (ys : List Nat) (pos : Nat) (T : State) : State :=
  { T with lists := fun l => (T.lists l).map (fun xs => if l = pos then ys ++ xs else insAfter ys pos xs) }

/-- `a` takes the place of `b`. -/
def exchange (b a : Nat) (T : State) : State :=
  { T with lists := fun l => (T.lists l).map (fun xs => xs.map (fun e => if e = b then a else e)) }

/-- The elements from `first` up to but excluding `last` (or to the end). -/
def range (first last : Nat) (xs : List Nat) : List Nat :=
  (xs.dropWhile (fun a => decide (a ≠ first))).takeWhile (fun a => decide (a ≠ last))

inductive Op where
  | newNode (a : Nat)
  | newList (a : Nat)
  | deleteNode (a : Nat)
  | deleteList (l : Nat)
  | insertBefore (n pos : Nat)
  | insertAfter (n pos : Nat)
  | remove (n : Nat)
  | pushBack (l n : Nat)
  | clear (l : Nat)
  | copyAssignNode (a b : Nat)
  | moveAssignNode (a b : Nat)
  | newNodeMove (a b : Nat)
  | moveAssignList (l m : Nat)
  | newListMove (l m : Nat)
  | moveBefore (pos l : Nat)
  | splice (l wher other first last : Nat)

/-- What the caller must ensure. -/
def Pre (T : State) : Op → Prop
  | .newNode a => T.Fresh a
  | .newList a => T.Fresh a
  | .deleteNode a => T.nodes a = true ∧ ¬ T.InList a
  | .deleteList l => (T.lists l).isSome
  | .insertBefore n pos => T.nodes n = true ∧ T.Pos pos ∧ n ≠ pos
  | .insertAfter n pos => T.nodes n = true ∧ T.Pos pos ∧ n ≠ pos
  | .remove n => T.InList n
  | .pushBack l n => T.nodes n = true ∧ (T.lists l).isSome
  | .clear l => (T.lists l).isSome
  | .copyAssignNode a b => T.nodes a = true ∧ T.nodes b = true
  | .moveAssignNode a b => T.nodes a = true ∧ ¬ T.InList a ∧ T.InList b
  | .newNodeMove a b => T.Fresh a ∧ T.InList b
  | .moveAssignList l m => T.lists l = some [] ∧ (T.lists m).isSome
  | .newListMove l m => T.Fresh l ∧ (T.lists m).isSome
  | .moveBefore pos l => T.Pos pos ∧ ∃ ys, T.lists l = some ys ∧ pos ≠ l ∧ pos ∉ ys
  | .splice l wher other first last =>
      first = last ∨ other = l ∨
      ∃ xs ys a seg b, T.lists l = some xs ∧ T.lists other = some ys ∧ (wher = l ∨ wher ∈ xs) ∧
        ys = a ++ first :: seg ++ b ∧ last = b.head?.getD other

/-- What the operations do. -/
def apply (T : State) : Op → State
  | .newNode a => { T with nodes := upd T.nodes a true }
  | .newList a => { T with lists := upd T.lists a (some []) }
  | .deleteNode a => { T with nodes := upd T.nodes a false }
  | .deleteList l => { T with lists := upd T.lists l none }
  | .insertBefore n pos => putBefore [n] pos (remove n T)
  | .insertAfter n pos => putAfter [n] pos (remove n T)
  | .remove n => remove n T
  | .pushBack l n => putBefore [n] l (remove n T)
  | .clear l => { T with lists := upd T.lists l (some []) }
  | .copyAssignNode a _ => remove a T
  | .moveAssignNode a b => exchange b a T
  | .newNodeMove a b => exchange b a { T with nodes := upd T.nodes a true }
  | .moveAssignList l m => { T with lists := upd (upd T.lists m (some [])) l (T.lists m) }
  | .newListMove l m => { T with lists := upd (upd T.lists m (some [])) l (T.lists m) }
  | .moveBefore pos l =>
      putBefore ((T.lists l).getD []) pos { T with lists := upd T.lists l (some []) }
  | .splice l wher other first last =>
      if first = last ∨ other = l then T
      else
        let ys := (T.lists other).getD []
        let seg := range first last ys
        putAfter seg wher { T with lists := upd T.lists other (some (ys.filter (fun a => decide (a ∉ seg)))) }

/-- A history in which every call meets its requirements. -/
def Valid (T : State) : List Op → Prop
  | [] => True
  | o :: ops => Pre T o ∧ Valid (apply T o) ops

end Verif.IList.Spec
