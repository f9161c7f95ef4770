import Verif.LoopDep.Model
import Verif.ScalarEvo.Spec

/-!
# What it means for two memory accesses in loops to be independent

Independent of how independence is tested. An expression means what `ScalarEvo.Spec.eval` says:
values are integers and wrap-around is left out.
-/

namespace Verif.LoopDep.Spec

open Verif.ScalarEvo (Node)
open Verif.ScalarEvo.Spec (Env eval)

/-- A comparison. -/
def holds : Rel → Int → Int → Prop
  | .lt, a, b => a < b
  | .gt, a, b => a > b
  | .le, a, b => a ≤ b
  | .ge, a, b => a ≥ b

/-- A counted loop: the induction variable starts at `init` and grows by `step`; the loop goes on
while it compares with `limit` as `rel` says; `testFirst`: the comparison comes before the body, not
after it. -/
structure Loop where
  init : Int
  step : Int
  rel : Rel
  limit : Node
  testFirst : Bool

/-- The induction variable in iteration `t`, counted from zero. -/
def Loop.value (L : Loop) (t : Int) : Int := L.init + L.step * t

/-- The body of the loop is executed in iteration `t`. -/
def Loop.runs (L : Loop) (e : Env) (t : Int) : Prop :=
  0 ≤ t ∧ (∀ t', 0 ≤ t' → t' < t → holds L.rel (L.value t') (eval e L.limit)) ∧
  (L.testFirst = true → holds L.rel (L.value t) (eval e L.limit))

/-- The bodies of the loops are executed in the iterations given by `e`. -/
def Executes (ls : List Nat) (loops : Nat → Loop) (e : Env) : Prop :=
  ∀ l ∈ ls, (loops l).runs e (e.iteration l)

/-- The memory which a pointer points to: a variable and a list of indices. -/
inductive Locates (c : Ctx) (e : Env) : Nat → Nat → List Int → Prop
  | var {p : Nat} (h : c.ptr p = .var) : Locates c e p p []
  | chain {p b r : Nat} {subs : List Nat} {path : List Int} (h : c.ptr p = .chain b subs)
      (hb : Locates c e b r path) : Locates c e p r (path ++ subs.map fun i => eval e (c.node i))
  | inBounds {p b r : Nat} {subs : List Nat} {path : List Int} (h : c.ptr p = .inBounds b subs)
      (hb : Locates c e b r path) : Locates c e p r (path ++ subs.map fun i => eval e (c.node i))

/-- The access through `src` in the iterations of `e1` and that through `dst` in the iterations of
`e2` touch the same memory. -/
def Conflict (c : Ctx) (e1 e2 : Env) (src dst : Nat) : Prop :=
  ∃ r p1 p2, Locates c e1 src r p1 ∧ Locates c e2 dst r p2 ∧ (p1 <+: p2 ∨ p2 <+: p1)

/-- In no two iterations do the accesses touch the same memory; unknown values are the same in both
of them. -/
def Independent (c : Ctx) (loops : Nat → Loop) (src dst : Nat) : Prop :=
  ∀ e1 e2, e1.unknown = e2.unknown → Executes c.loops loops e1 → Executes c.loops loops e2 →
    ¬ Conflict c e1 e2 src dst

/-- What the analysis looks up about a loop is true of it. -/
structure Describes (li : LoopInfo) (l : Nat) (L : Loop) : Prop where
  cond : li.cond = some L.rel
  lhs : li.lhs = some (.const L.init)
  rhs : li.rhs = L.limit
  phis : li.phis = [.recur l (.const L.init) (.const L.step)]
  init : ∀ i, li.init = some i → i = L.init
  trips : ∀ n, li.trips = some n → ∀ e t, L.runs e t ↔ (0 ≤ t ∧ t < n)

/-- The instruction is the induction variable of a loop. -/
def inductionVar (loops : Nat → Loop) (l : Nat) : Node :=
  .recur l (.const (loops l).init) (.const (loops l).step)

mutual
/-- Sums of constants and multiples of the induction variables of the loops `ls`. -/
def Linear (loops : Nat → Loop) (ls : List Nat) : Node → Prop
  | .const _ => True
  | .recur l off coef => l ∈ ls ∧ Node.recur l off coef = inductionVar loops l
  | .add cs => LinearList loops ls cs
  | .mul a b =>
    (∃ v l, l ∈ ls ∧ a = .const v ∧ b = inductionVar loops l) ∨
    (∃ v l, l ∈ ls ∧ b = .const v ∧ a = inductionVar loops l)
  | .neg a => Linear loops ls a
  | _ => False
def LinearList (loops : Nat → Loop) (ls : List Nat) : List Node → Prop
  | [] => True
  | c :: cs => Linear loops ls c ∧ LinearList loops ls cs
end

/-- The loop counts upwards from zero by one and is tested before its body. Its limit is a linear
combination of values from outside the loops, or of induction variables. -/
structure Upward (loops : Nat → Loop) (ls : List Nat) (L : Loop) : Prop where
  init : L.init = 0
  step : L.step = 1
  rel : L.rel = .lt ∨ L.rel = .le
  testFirst : L.testFirst = true
  limit : ScalarEvo.Spec.Affine L.limit ∨ Linear loops ls L.limit

/-- All loops in their first iteration, unknown values zero. -/
def origin : Env := ⟨fun _ => 0, fun _ => 0, 0⟩

/-- The loop `l` in its second iteration, the others in the first one. -/
def oneStep (l : Nat) : Env := ⟨fun _ => 0, fun l' => if l' = l then 1 else 0, 0⟩

/-- The value in the first iteration of all loops. -/
def base (n : Node) : Int := eval origin n

/-- By how much the value grows with each iteration of loop `l`. -/
def growth (l : Nat) (n : Node) : Int := eval (oneStep l) n - eval origin n

mutual
/-- An induction variable of the loop occurs in the expression, perhaps only to cancel out. -/
def Mentions (l : Nat) : Node → Prop
  | .recur l' off coef => l' = l ∨ Mentions l off ∨ Mentions l coef
  | .add cs => MentionsList l cs
  | .mul a b => Mentions l a ∨ Mentions l b
  | .neg a => Mentions l a
  | _ => False
def MentionsList (l : Nat) : List Node → Prop
  | [] => False
  | c :: cs => Mentions l c ∨ MentionsList l cs
end

/-- Exactly one loop has an influence on the two subscripts. -/
def Single (s d : Node) : Prop :=
  ∃ l, (growth l s ≠ 0 ∨ growth l d ≠ 0) ∧ ∀ l', l' ≠ l → growth l' s = 0 ∧ growth l' d = 0

/-- The subscripts move in opposite directions and meet halfway between two iterations. -/
def MeetHalfway (s d : Node) : Prop :=
  ∃ l, growth l s ≠ 0 ∧ growth l d = -growth l s ∧ base d - base s = growth l s

/-- Some loop occurs in a subscript of both pairs. -/
def Coupled (p q : Node × Node) : Prop :=
  ∃ l, (Mentions l p.1 ∨ Mentions l p.2) ∧ (Mentions l q.1 ∨ Mentions l q.2)

/-- What an entry of the distance vector says is true of a source access in iteration `t1` and a
destination access in iteration `t2` of its loop, which has `trips` iterations if that is known. -/
structure EntryTrue (x : Entry) (t1 t2 : Int) (trips : Option Int) : Prop where
  lt : x.dir = .lt → t2 < t1
  eq : x.dir = .eq → t1 = t2
  gt : x.dir = .gt → t1 < t2
  some : x.dir ≠ .none
  distance : x.info = .distance → t1 - t2 = x.distance
  point : x.info = .point → t2 = x.pointX ∧ t1 = x.pointY
  first : x.peelFirst = true → t1 = 0 ∨ t2 = 0
  last : x.peelLast = true → ∀ n, trips = Option.some n → t1 = n - 1 ∨ t2 = n - 1

/-- The loops are those which the analysis knows, and count upwards from zero. -/
structure Setting (c : Ctx) (loops : Nat → Loop) : Prop where
  describes : ∀ l ∈ c.loops, Describes (c.info l) l (loops l)
  upward : ∀ l ∈ c.loops, Upward loops c.loops (loops l)

/-- A variable, or an element of a variable. -/
def Flat (c : Ctx) (p : Nat) : Prop :=
  c.ptr p = .var ∨ ∃ b subs, c.ptr p = .chain b subs ∧ c.ptr b = .var

/-- The accesses for which the analysis is shown to be right. -/
structure Regular (c : Ctx) (loops : Nat → Loop) (src dst : Nat) : Prop where
  flatSrc : Flat c src
  flatDst : Flat c dst
  /-- Subscripts are sums of constants and multiples of induction variables. -/
  linear : ∀ p b subs, p = src ∨ p = dst → c.ptr p = .chain b subs →
    ∀ i ∈ subs, Linear loops c.loops (c.node i)
  /-- If the same loop occurs in two positions, then each of them depends on one loop only, and does
  not meet halfway between two iterations. -/
  coupled : ∀ b1 b2 s1 s2, c.ptr src = .chain b1 s1 → c.ptr dst = .chain b2 s2 →
    ∀ p ∈ s1.zip s2, ∀ q ∈ s1.zip s2, p ≠ q →
      Coupled (c.node p.1, c.node p.2) (c.node q.1, c.node q.2) →
      Single (c.node p.1) (c.node p.2) ∧ ¬ MeetHalfway (c.node p.1) (c.node p.2)

/-- No position meets halfway between two iterations. -/
def NoHalfway (c : Ctx) (src dst : Nat) : Prop :=
  ∀ b1 b2 s1 s2, c.ptr src = .chain b1 s1 → c.ptr dst = .chain b2 s2 →
    ∀ p ∈ s1.zip s2, ¬ MeetHalfway (c.node p.1) (c.node p.2)

/-- Sets are visited in some order. -/
structure Fair (o : Sched) : Prop where
  pairs : ∀ g, (o.pairs g).Perm g
  groups : ∀ gs, (o.groups gs).Perm gs

end Verif.LoopDep.Spec
