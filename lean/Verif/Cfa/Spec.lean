import Verif.Cfa.Model
/-!
# Independent specifications for the control-flow analyses
-/
namespace Verif.Cfa.Spec
open Verif.Cfa
variable {B : Type} [DecidableEq B]

/-- `b` is reachable from `a` along edges `E` (reflexive, transitive). -/
inductive Reach (E : B → B → Prop) : B → B → Prop
  | refl (a) : Reach E a a
  | tail {a b c} : Reach E a b → E b c → Reach E a c

/-- A search does not look past a terminal block. -/
def Edge (succ : B → List B) (terminal : B → Bool) (a b : B) : Prop :=
  terminal a = false ∧ b ∈ succ a

/-- Textbook recursive depth-first search. `Kids kids u S P cs es P'` : having
arrived at block `u` below the ancestors `S`, with the set `P` already seen,
examining the children `cs` in order makes the calls `es` and leaves the set `P'`
seen. A child already seen is skipped (and reported as a back edge if it is an
ancestor or `u` itself); a child not yet seen is entered, searched and left. -/
inductive Kids (kids : B → List B) :
    B → List B → List B → List B → List (Event B) → List B → Prop
  | nil (u S P) : Kids kids u S P [] [] P
  | skip {u S P c cs es P'} : c ∈ P → Kids kids u S P cs es P' →
      Kids kids u S P (c :: cs) ((if c ∈ u :: S then [.back u c] else []) ++ es) P'
  | enter {u S P c cs e₁ P₁ e₂ P₂} : c ∉ P →
      Kids kids c (u :: S) (c :: P) (kids c) e₁ P₁ → Kids kids u S P₁ cs e₂ P₂ →
      Kids kids u S P (c :: cs) (.pre c :: (e₁ ++ .post c :: e₂)) P₂

/-- `es` is the call sequence of a recursive depth-first search from `entry`. -/
def IsDfs (succ : B → List B) (terminal : B → Bool) (entry : B) (es : List (Event B)) : Prop :=
  let kids := fun b => if terminal b then [] else succ b
  ∃ e P, Kids kids entry [] [entry] (kids entry) e P ∧ es = .pre entry :: (e ++ [.post entry])

/-- `x` comes strictly before `y` in the list `l`. -/
def Before (l : List B) (x y : B) : Prop := ∃ l₁ l₂ l₃, l = l₁ ++ x :: l₂ ++ y :: l₃

/-- `p` is a path from `a` to `b` along `E`: it starts with `a`, ends with `b`, and
consecutive members are joined by edges. -/
inductive Path (E : B → B → Prop) : B → B → List B → Prop
  | single (a) : Path E a a [a]
  | snoc {a b c p} : Path E a b p → E b c → Path E a c (p ++ [c])

/-- `d` dominates `b`: every path from the root to `b` passes through `d`. -/
def Dominates (E : B → B → Prop) (root d b : B) : Prop :=
  ∀ p, Path E root b p → d ∈ p

/-- `d` is the immediate dominator of `b`: a strict dominator which every strict
dominator of `b` dominates. -/
def IsIdom (E : B → B → Prop) (root d b : B) : Prop :=
  d ≠ b ∧ Dominates E root d b ∧ ∀ x, x ≠ b → Dominates E root x b → Dominates E root x d

end Verif.Cfa.Spec
