import Verif.ScalarEvo.Model

/-!
# What a scalar-evolution expression means

Independent of how expressions are simplified. Values are integers; `Spec.evalMod` reads the same
expression in arithmetic modulo `2 ^ w`, as a shader does.
-/

namespace Verif.ScalarEvo.Spec

/-- An assignment: a value for each unknown, the number of the current iteration of each loop, and
something for nodes which could not be computed. -/
structure Env where
  unknown : Nat → Int
  iteration : Nat → Int
  cant : Int

mutual
/-- The value of an expression; scalar_analysis_nodes.h:235-240 says that a recurrent expression
is `coefficient * iteration + offset`. -/
def eval (e : Env) : Node → Int
  | .const v => v
  | .unknown i => e.unknown i
  | .recur l off coef => eval e coef * e.iteration l + eval e off
  | .add cs => evalSum e cs
  | .mul a b => eval e a * eval e b
  | .neg a => -eval e a
  | .cant => e.cant
def evalSum (e : Env) : List Node → Int
  | [] => 0
  | c :: cs => eval e c + evalSum e cs
end

mutual
/-- The value of an expression in arithmetic on `w` bits. -/
def evalMod (w : Nat) (u i : Nat → BitVec w) : Node → BitVec w
  | .const v => BitVec.ofInt w v
  | .unknown n => u n
  | .recur l off coef => evalMod w u i coef * i l + evalMod w u i off
  | .add cs => evalModSum w u i cs
  | .mul a b => evalMod w u i a * evalMod w u i b
  | .neg a => -evalMod w u i a
  | .cant => 0
def evalModSum (w : Nat) (u i : Nat → BitVec w) : List Node → BitVec w
  | [] => 0
  | c :: cs => evalMod w u i c + evalModSum w u i cs
end

mutual
/-- No recurrent expression and nothing which cannot be computed. -/
def RecFree : Node → Prop
  | .const _ => True
  | .unknown _ => True
  | .recur .. => False
  | .add cs => RecFreeList cs
  | .mul a b => RecFree a ∧ RecFree b
  | .neg a => RecFree a
  | .cant => False
def RecFreeList : List Node → Prop
  | [] => True
  | c :: cs => RecFree c ∧ RecFreeList cs
end

/-- A constant times an unknown, in either order. -/
def ConstTimesUnknown (a b : Node) : Prop :=
  (∃ v i, a = .const v ∧ b = .unknown i) ∨ (∃ v i, a = .unknown i ∧ b = .const v)

mutual
/-- A linear combination of unknowns with constant coefficients. -/
def Affine : Node → Prop
  | .const _ => True
  | .unknown _ => True
  | .recur .. => False
  | .add cs => AffineList cs
  | .mul a b => ConstTimesUnknown a b
  | .neg a => Affine a
  | .cant => False
def AffineList : List Node → Prop
  | [] => True
  | c :: cs => Affine c ∧ AffineList cs
end

/-- An unknown, or a recurrent expression whose offset and step are linear combinations of
unknowns. -/
def Term : Node → Prop
  | .unknown _ => True
  | .recur _ off coef => Affine off ∧ Affine coef
  | _ => False

mutual
/-- The expressions for which simplification is claimed to be right: sums and negations of
constants, terms and products of a constant and a term. Other products may occur only under an
even number of negations (`neg` is true below an odd number) and must be free of recurrent
expressions. -/
def Supported (neg : Bool) : Node → Prop
  | .const _ => True
  | .unknown _ => True
  | .recur _ off coef => Affine off ∧ Affine coef
  | .add cs => SupportedList neg cs
  | .mul a b =>
    (∃ v, a = .const v ∧ Term b) ∨ (∃ v, b = .const v ∧ Term a) ∨
    (neg = false ∧ RecFree a ∧ RecFree b)
  | .neg a => Supported (!neg) a
  | .cant => False
def SupportedList (neg : Bool) : List Node → Prop
  | [] => True
  | c :: cs => Supported neg c ∧ SupportedList neg cs
end

mutual
/-- How often the term `t` occurs in the sum that `n` is. -/
def count (t : Node) : Node → Int
  | .const _ => 0
  | .unknown i => if t = .unknown i then 1 else 0
  | .recur l off coef => if t = .recur l off coef then 1 else 0
  | .add cs => countSum t cs
  | .mul a b =>
    match a, b with
    | .const v, x => if x = t then v else 0
    | x, .const v => if x = t then v else 0
    | _, _ => 0
  | .neg a => -count t a
  | .cant => 0
def countSum (t : Node) : List Node → Int
  | [] => 0
  | c :: cs => count t c + countSum t cs
end

mutual
/-- By how much the value of the sum that `n` is grows with each iteration of the loop `l`. -/
def slope (e : Env) (l : Nat) : Node → Int
  | .const _ => 0
  | .unknown _ => 0
  | .recur l' _ coef => if l' = l then eval e coef else 0
  | .add cs => slopeSum e l cs
  | .mul a b =>
    match a, b with
    | .const v, x => v * slope e l x
    | x, .const v => v * slope e l x
    | _, _ => 0
  | .neg a => -slope e l a
  | .cant => 0
def slopeSum (e : Env) (l : Nat) : List Node → Int
  | [] => 0
  | c :: cs => slope e l c + slopeSum e l cs
end

/-- The recurrent expression occurs in `n` and does not cancel out. -/
def Live (n : Node) (l : Nat) (off coef : Node) : Prop := count (.recur l off coef) n ≠ 0

/-- A recurrent expression counted other than once, positively or negatively, starts at zero. -/
def ScaledFromZero (n : Node) : Prop :=
  ∀ l off coef, (count (.recur l off coef) n).natAbs ≤ 1 ∨ off = .const 0

/-- No unknown is counted exactly minus once, or no two recurrent expressions share a loop. -/
def NoLostNegation (n : Node) : Prop :=
  (∀ i, count (.unknown i) n ≠ -1) ∨
  (∀ l o c o' c', Live n l o c → Live n l o' c' → o = o' ∧ c = c')

/-- The steps of the recurrent expressions of one loop do not cancel. -/
def NoLostLoop (n : Node) : Prop :=
  ∀ l o c, Live n l o c → ∃ e, slope e l n ≠ 0

/-! ## Products -/

/-- The factors of a product of products have no recurrent expressions and are supported. -/
def GoodFactors : Node → Prop
  | .mul a b => GoodFactors a ∧ GoodFactors b
  | n => Supported false n ∧ RecFree n

/-- In the order in which children are kept, the second factor of a product, and of a product which
is its first factor, and so on, is not a product itself. -/
def LeftLeaning (o : Order) : Node → Prop
  | .mul a b =>
    if o.uid b ≤ o.uid a then (∀ x y, b ≠ .mul x y) ∧ LeftLeaning o a
    else (∀ x y, a ≠ .mul x y) ∧ LeftLeaning o b
  | _ => True

end Verif.ScalarEvo.Spec
