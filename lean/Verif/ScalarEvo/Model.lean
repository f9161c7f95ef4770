/-!
# Scalar evolution: simplifying, comparing with zero and dividing expressions

Models `source/opt/scalar_analysis_nodes.h`, `source/opt/scalar_analysis_simplification.cpp` and,
from `source/opt/scalar_analysis.cpp`, the `Create*` functions (57-162), `IsGreaterThanZero`
(649-924) and the division of expressions (926-984).

How nodes are represented. The analysis keeps one object for each different node
(`GetCachedOrAdd`, scalar_analysis.cpp:363-373), so that comparing pointers is comparing nodes.
The model therefore uses trees, compared structurally, and `GetCachedOrAdd` is the identity. Two
orders depend on the history of the analysis: children are sorted by the number a node received
when it was created, and `std::map`s with pointers as keys are sorted by address. Both orders are
parameters (`Order`), about which nothing is assumed: the theorems hold for all of them.

Not modelled here: building nodes from instructions (`AnalyzeInstruction`), the half-built
recurrent node which is visible while a phi is analysed, `pretend_equal_`.
-/

namespace Verif.ScalarEvo

/-- scalar_analysis_nodes.h:43-343. `mul` has two children because `CreateMultiplyNode`
(scalar_analysis.cpp:123-128), the only place where such a node is built, gives it two; `neg` has
one for the same reason (scalar_analysis.cpp:64-66). A loop and the instruction behind an unknown
value are numbers. -/
inductive Node where
  | const (v : Int)
  | unknown (id : Nat)
  | recur (loop : Nat) (offset coef : Node)
  | add (cs : List Node)
  | mul (a b : Node)
  | neg (a : Node)
  | cant
deriving Repr, Inhabited

mutual
/-- scalar_analysis.cpp:497-545 `SENode::operator==`; with one object for each node this is
equality of trees (`Node.same_iff`). -/
def Node.same : Node → Node → Bool
  | .const v, .const w => v == w
  | .unknown i, .unknown j => i == j
  | .recur l o c, .recur l' o' c' => l == l' && Node.same o o' && Node.same c c'
  | .add cs, .add ds => Node.sameList cs ds
  | .mul a b, .mul a' b' => Node.same a a' && Node.same b b'
  | .neg a, .neg a' => Node.same a a'
  | .cant, .cant => true
  | _, _ => false
/-- The loop over the children in `SENode::operator==`, scalar_analysis.cpp:508-510. -/
def Node.sameList : List Node → List Node → Bool
  | [], [] => true
  | c :: cs, d :: ds => Node.same c d && Node.sameList cs ds
  | _, _ => false
end

mutual
theorem Node.same_iff : ∀ a b : Node, Node.same a b = true ↔ a = b
  | .const v, b => by cases b <;> simp [Node.same]
  | .unknown v, b => by cases b <;> simp [Node.same]
  | .recur l o c, b => by
      cases b <;> simp [Node.same, Node.same_iff o, Node.same_iff c, and_assoc]
  | .add cs, b => by cases b <;> simp [Node.same, Node.sameList_iff cs]
  | .mul x y, b => by cases b <;> simp [Node.same, Node.same_iff x, Node.same_iff y]
  | .neg x, b => by cases b <;> simp [Node.same, Node.same_iff x]
  | .cant, b => by cases b <;> simp [Node.same]
theorem Node.sameList_iff : ∀ cs ds : List Node, Node.sameList cs ds = true ↔ cs = ds
  | [], ds => by cases ds <;> simp [Node.sameList]
  | c :: cs, ds => by
      cases ds <;> simp [Node.sameList, Node.same_iff c, Node.sameList_iff cs]
end

instance : DecidableEq Node := fun a b => decidable_of_iff _ (Node.same_iff a b)

/-- The orders which depend on the history of the process: `uid` is `SENode::unique_id_`
(scalar_analysis_nodes.h:57-58, 199), `addr` the address of a node, `loopAddr` that of a loop. -/
structure Order where
  uid : Node → Nat
  addr : Node → Nat
  loopAddr : Nat → Nat

/-- What can go wrong: `overflow` is signed 64-bit overflow and `uninit` the use of an
uninitialised pointer, both undefined behaviour in C++; `fuel` only says that the bound on the
recursion of the model was too small. -/
inductive Err where
  | overflow
  | uninit
  | fuel
deriving DecidableEq, Repr

/-- The value of an `int64_t` computation whose exact result is `x`. -/
def i64 (x : Int) : Except Err Int :=
  if -(2 ^ 63) ≤ x ∧ x < 2 ^ 63 then .ok x else .error .overflow

def Node.isConst : Node → Bool
  | .const _ => true
  | _ => false

def Node.isCant : Node → Bool
  | .cant => true
  | _ => false

def Node.isRecur : Node → Bool
  | .recur .. => true
  | _ => false

/-- A value unknown or a recurrent expression: the terms of the linear form. -/
def Node.isTerm : Node → Bool
  | .unknown _ => true
  | .recur .. => true
  | _ => false

/-- scalar_analysis_nodes.h:64-81 `SENode::AddChild`: insert before the first child whose number
is smaller. -/
def addChild (o : Order) (child : Node) : List Node → List Node
  | [] => [child]
  | c :: cs =>
    if o.uid child ≤ o.uid c then c :: addChild o child cs else child :: c :: cs

/-- scalar_analysis_nodes.h:167 `GetChildren`. The children of a multiplication are added left to
right (scalar_analysis.cpp:125-126), those of a recurrent expression offset first
(scalar_analysis.cpp:91-92; the order in which equal keys are added does not matter, they are the
same node). -/
def Node.children (o : Order) : Node → List Node
  | .const _ => []
  | .unknown _ => []
  | .recur _ off coef => addChild o coef [off]
  | .add cs => cs
  | .mul a b => addChild o b [a]
  | .neg a => [a]
  | .cant => []

/-- scalar_analysis.cpp:57-67 `CreateNegation`. -/
def createNegation : Node → Except Err Node
  | .cant => .ok .cant
  | .const v => do return .const (← i64 (-v))
  | n => .ok (.neg n)

/-- scalar_analysis.cpp:111-129 `CreateMultiplyNode`. -/
def createMultiply (a b : Node) : Except Err Node :=
  if a.isCant || b.isCant then .ok .cant
  else match a, b with
    | .const v, .const w => do return .const (← i64 (v * w))
    | _, _ => .ok (.mul a b)

/-- scalar_analysis.cpp:143-162 `CreateAddNode`. -/
def createAdd (o : Order) (a b : Node) : Except Err Node :=
  match a, b with
  | .const v, .const w => do return .const (← i64 (v + w))
  | _, _ =>
    if a.isCant || b.isCant then .ok .cant
    else .ok (.add (addChild o b [a]))

/-- scalar_analysis.cpp:131-141 `CreateSubtraction`. -/
def createSubtraction (o : Order) (a b : Node) : Except Err Node :=
  match a, b with
  | .const v, .const w => do return .const (← i64 (v - w))
  | _, _ => do createAdd o a (← createNegation b)

/-- scalar_analysis_simplification.cpp:139-148 together with the children of `new_add`
(315): the state of `SENodeSimplifyImpl` while terms are gathered. -/
structure Acc where
  /-- Children added to the new node because they could not be broken up. -/
  kept : List Node := []
  /-- `constant_accumulator_`. -/
  const : Int := 0
  /-- `accumulators_`, sorted by address. -/
  terms : List (Node × Int) := []

/-- `accumulators_[t] += v`, or an insertion of `(t, v)` where there is no `t` yet:
scalar_analysis_simplification.cpp:185-192 and 259-264. -/
def addTerm (o : Order) (t : Node) (v : Int) :
    List (Node × Int) → Except Err (List (Node × Int))
  | [] => .ok [(t, v)]
  | (s, w) :: rest =>
    if s = t then do return (s, ← i64 (w + v)) :: rest
    else if o.addr t < o.addr s ∧ ∀ p ∈ rest, p.1 ≠ t then .ok ((t, v) :: (s, w) :: rest)
    else do return (s, w) :: (← addTerm o t v rest)

/-- scalar_analysis_simplification.cpp:157-181, from `AccumulatorsFromMultiply`: the variable and
the constant of a product of the form variable * constant, in either order. -/
def splitMultiply (o : Order) (a b : Node) : Option (Node × Int) :=
  match addChild o b [a] with
  | [x, y] =>
    let variable? :=
      if x.isTerm then some x else if y.isTerm then some y else none
    let constant? : Option Int :=
      match x, y with
      | .const v, _ => some v
      | _, .const v => some v
      | _, _ => none
    match variable?, constant? with
    | some t, some v => some (t, v)
    | _, _ => none
  | _ => none

mutual
/-- scalar_analysis_simplification.cpp:242-284 `GatherAccumulatorsFromChildNodes`. -/
def gather (o : Order) (acc : Acc) (child : Node) (negation : Bool) : Except Err Acc :=
  let sign : Int := if negation then -1 else 1
  match child with
  | .const v => do
    let c ← i64 (v * sign)
    return { acc with const := ← i64 (acc.const + c) }
  | .unknown i => do
    return { acc with terms := ← addTerm o (.unknown i) sign acc.terms }
  | .recur l off coef => do
    return { acc with terms := ← addTerm o (.recur l off coef) sign acc.terms }
  | .mul a b =>
    match splitMultiply o a b with
    | some (t, v) => do
      let w ← i64 (v * sign)
      return { acc with terms := ← addTerm o t w acc.terms }
    | none => .ok { acc with kept := addChild o (.mul a b) acc.kept }
  | .add cs => gatherList o acc cs negation
  | .neg a => gather o acc a (!negation)
  | .cant => .ok { acc with kept := addChild o .cant acc.kept }
/-- The loop over the children of an addition, scalar_analysis_simplification.cpp:272-274. -/
def gatherList (o : Order) (acc : Acc) (cs : List Node) (negation : Bool) : Except Err Acc :=
  match cs with
  | [] => .ok acc
  | c :: cs => do gatherList o (← gather o acc c negation) cs negation
end

/-- scalar_analysis_simplification.cpp:286-311 `UpdateCoefficient`; `simp` is
`SimplifyExpression`. -/
def updateCoefficient (simp : Node → Except Err Node) (loop : Nat) (offset coef : Node)
    (count : Int) : Except Err Node := do
  let newCoefficient ← createMultiply coef (.const count)
  let simplified ← simp newCoefficient
  let newCoefficient := if simplified.isCant then newCoefficient else simplified
  let newOffset ← (if count < 0 then createNegation offset else .ok offset)
  return .recur loop newOffset newCoefficient

/-- The child of the new addition which stands for one term, or nothing:
scalar_analysis_simplification.cpp:326-356. -/
def termChild (simp : Node → Except Err Node) (term : Node) (count : Int) :
    Except Err (Option Node) :=
  if count = 0 then .ok none
  else if count = 1 then .ok (some term)
  else if count = -1 && !term.isRecur then do return some (← createNegation term)
  else match term with
    | .recur l off coef => do return some (← updateCoefficient simp l off coef count)
    | _ => do return some (← createMultiply (.const count) term)

/-- The loop over the accumulators, scalar_analysis_simplification.cpp:325-357. -/
def addTerms (o : Order) (simp : Node → Except Err Node) :
    List (Node × Int) → List Node → Except Err (List Node)
  | [], cs => .ok cs
  | (t, v) :: rest, cs => do
    match ← termChild simp t v with
    | none => addTerms o simp rest cs
    | some c => addTerms o simp rest (addChild o c cs)

/-- The end of `SimplifyPolynomial` and of `FoldRecurrentAddExpressions`: an addition, or its only
child; scalar_analysis_simplification.cpp:359-369. -/
def wrap : List Node → Node
  | [] => .const 0
  | [c] => c
  | cs => .add cs

/-- scalar_analysis_simplification.cpp:314-370 `SimplifyPolynomial`. -/
def simplifyPolynomial (o : Order) (simp : Node → Except Err Node) (node : Node) :
    Except Err Node := do
  let acc ← gather o {} node false
  let cs := if acc.const ≠ 0 then addChild o (.const acc.const) acc.kept else acc.kept
  let cs ← addTerms o simp acc.terms cs
  return wrap cs

/-- `loops_to_recurrent`: for each loop, in the order of the map, the offset, the coefficient and
the sign of its recurrent expressions. -/
abbrev Groups := List (Nat × List (Node × Node × Bool))

/-- scalar_analysis_simplification.cpp:394-399: append to the list of a loop; the flag says that
the loop was known already. -/
def addRecurrent (o : Order) (l : Nat) (r : Node × Node × Bool) : Groups → Groups × Bool
  | [] => ([(l, [r])], false)
  | (l', rs) :: rest =>
    if l' = l then ((l', rs ++ [r]) :: rest, true)
    else if o.loopAddr l < o.loopAddr l' ∧ ∀ p ∈ rest, p.1 ≠ l then
      ((l, [r]) :: (l', rs) :: rest, false)
    else
      let (g, b) := addRecurrent o l r rest
      ((l', rs) :: g, b)

/-- scalar_analysis_simplification.cpp:385-388: a negation is stepped over. -/
def stripNegation : Node → Node × Bool
  | .neg a => (a, true)
  | n => (n, false)

/-- The loop over the children of `FoldRecurrentAddExpressions`,
scalar_analysis_simplification.cpp:382-403: the children of the new node, the groups, and
`has_multiple_same_loop_recurrent_terms`. -/
def splitRecurrents (o : Order) : List Node → List Node × Groups × Bool →
    List Node × Groups × Bool
  | [], s => s
  | c :: cs, (others, groups, multiple) =>
    match stripNegation c with
    | (.recur l off coef, negation) =>
      let (g, known) := addRecurrent o l (off, coef, negation) groups
      splitRecurrents o cs (others, g, multiple || known)
    | (child, _) => splitRecurrents o cs (addChild o child others, groups, multiple)

/-- scalar_analysis_simplification.cpp:415-427: the children of the new coefficient and of the new
offset. -/
def sumRecurrents (o : Order) : List (Node × Node × Bool) → List Node × List Node →
    Except Err (List Node × List Node)
  | [], s => .ok s
  | (off, coef, negative) :: rest, (coefs, offs) => do
    if !negative then
      sumRecurrents o rest (addChild o coef coefs, addChild o off offs)
    else
      let c ← createNegation coef
      let f ← createNegation off
      sumRecurrents o rest (addChild o c coefs, addChild o f offs)

/-- The loop over the groups, scalar_analysis_simplification.cpp:407-448; `.error n` stands for
the `return` in the middle of it (441). -/
def foldGroups (o : Order) (simp : Node → Except Err Node) :
    Groups → List Node → Except Err (Except Node (List Node))
  | [], others => .ok (.ok others)
  | (l, rs) :: rest, others => do
    let (coefs, offs) ← sumRecurrents o rs ([], [])
    let coef ← simp (.add coefs)
    let off ← simp (.add offs)
    if coef = .const 0 then return .error off
    else foldGroups o simp rest (addChild o (.recur l off coef) others)

/-- scalar_analysis_simplification.cpp:450-455: unlike in `SimplifyPolynomial` there always is a
child. -/
def foldRecurrents (o : Order) (simp : Node → Except Err Node) (root : Node) :
    Except Err Node := do
  let (others, groups, multiple) := splitRecurrents o (root.children o) ([], [], false)
  if !multiple then return root
  else match ← foldGroups o simp groups others with
    | .error early => return early
    | .ok cs => return wrap cs

/-- scalar_analysis_simplification.cpp:463-480: a recurrent expression with coefficient zero is
replaced by its offset. -/
def zeroRecurrent : Node → Node
  | .recur _ off (.const 0) => off
  | n => n

def isZeroRecurrent : Node → Bool
  | .recur _ _ (.const 0) => true
  | _ => false

/-- Add children one after the other. -/
def addAll (o : Order) : List Node → List Node → List Node
  | [], cs => cs
  | n :: ns, cs => addAll o ns (addChild o n cs)

/-- scalar_analysis_simplification.cpp:458-491 `EliminateZeroCoefficientRecurrents`. -/
def eliminateZero (o : Order) : Node → Node
  | .add cs =>
    if cs.any isZeroRecurrent then .add (addAll o (cs.map zeroRecurrent) []) else .add cs
  | n => n

/-- scalar_analysis_simplification.cpp:505-509: the children which are not recurrent expressions
are added to the offset. -/
def offsetChildren (o : Order) (offset : Node) (children : List Node) : List Node :=
  addAll o (children.filter fun c => !c.isRecur) [offset]

/-- scalar_analysis_simplification.cpp:493-525 `SimplifyRecurrentAddExpression`. `node` is
`node_`. Where the offset cannot be computed the code completes the offset of the wrong node (519),
so that the new one is left with an uninitialised offset, which is then read. -/
def simplifyRecurrent (o : Order) (simp : Node → Except Err Node) (node : Node)
    (loop : Nat) (offset coef : Node) : Except Err Node := do
  let simplified ← simp (.add (offsetChildren o offset (node.children o)))
  if simplified.isCant then .error .uninit
  else return .recur loop simplified coef

mutual
/-- The recurrent expressions met when the whole graph is visited, root included;
scalar_analysis_simplification.cpp:226-232 and tree_iterator.h. -/
def Node.recurrents : Node → List Node
  | .const _ => []
  | .unknown _ => []
  | .recur l off coef => .recur l off coef :: (off.recurrents ++ coef.recurrents)
  | .add cs => Node.recurrentsList cs
  | .mul a b => a.recurrents ++ b.recurrents
  | .neg a => a.recurrents
  | .cant => []
/-- The recurrent expressions in a list of children. -/
def Node.recurrentsList : List Node → List Node
  | [] => []
  | c :: cs => c.recurrents ++ Node.recurrentsList cs
end

/-- scalar_analysis_simplification.cpp:218-222: the last child which is a recurrent expression. -/
def lastRecurrent : List Node → Option Node
  | [] => none
  | c :: cs =>
    match lastRecurrent cs with
    | some r => some r
    | none => if c.isRecur then some c else none

/-- scalar_analysis_simplification.cpp:197-239 `Simplify` after the first stage, whose result is
`poly`. -/
def finish (o : Order) (simp : Node → Except Err Node) (poly : Node) : Except Err Node := do
  let folded ← foldRecurrents o simp poly
  let s := eliminateZero o folded
  match lastRecurrent (s.children o) with
  | none => return s
  | some r =>
    if s.recurrents.any (fun r' => r' ≠ r) then return s
    else match r with
      | .recur l off coef => simplifyRecurrent o simp poly l off coef
      | _ => return s

/-- scalar_analysis_simplification.cpp:531-535 `SimplifyExpression`. `fuel` bounds how deep
`SimplifyExpression` calls itself. -/
def simplify (o : Order) : Nat → Node → Except Err Node
  | 0, _ => .error .fuel
  | fuel + 1, node =>
    match node with
    | .add _ | .mul .. | .neg _ => do
      let poly ← simplifyPolynomial o (simplify o fuel) node
      finish o (simplify o fuel) poly
    | _ => .ok node

/-! ## Comparing with zero -/

/-- scalar_analysis.cpp:693-699. -/
inductive Sign where
  | any
  | neg
  | nonPos
  | pos
  | nonNeg
deriving DecidableEq, Repr

/-- scalar_analysis.cpp:706-738 `GetAddCombiner`. -/
def addSign : Sign → Sign → Sign
  | .neg, .neg => .neg
  | .neg, .nonPos => .neg
  | .nonPos, .neg => .neg
  | .nonPos, .nonPos => .nonPos
  | .pos, .pos => .pos
  | .pos, .nonNeg => .pos
  | .nonNeg, .pos => .pos
  | .nonNeg, .nonNeg => .nonNeg
  | _, _ => .any

/-- scalar_analysis.cpp:742-805 `GetMulCombiner`. -/
def mulSign : Sign → Sign → Sign
  | .any, _ => .any
  | .neg, .any => .any
  | .neg, .neg => .pos
  | .neg, .nonPos => .nonNeg
  | .neg, .pos => .neg
  | .neg, .nonNeg => .nonPos
  | .nonPos, .any => .any
  | .nonPos, .neg => .nonNeg
  | .nonPos, .nonPos => .nonNeg
  | .nonPos, .pos => .nonPos
  | .nonPos, .nonNeg => .nonPos
  | .pos, s => s
  | .nonNeg, .any => .any
  | .nonNeg, .neg => .nonPos
  | .nonNeg, .nonPos => .nonPos
  | .nonNeg, .pos => .nonNeg
  | .nonNeg, .nonNeg => .nonNeg

/-- scalar_analysis.cpp:872-891. -/
def negSign : Sign → Sign
  | .any => .any
  | .neg => .pos
  | .nonPos => .nonNeg
  | .pos => .neg
  | .nonNeg => .nonPos

/-- scalar_analysis.cpp:835-840. -/
def constSign (v : Int) : Sign :=
  if v = 0 then .nonNeg else if 0 < v then .pos else .neg

/-- scalar_analysis.cpp:858-867: the first iteration has number zero. -/
def stepSign : Sign → Sign
  | .neg => .nonPos
  | .pos => .nonNeg
  | s => s

mutual
/-- scalar_analysis.cpp:807-895 `Visit`. `signed` says whether the instruction behind an unknown
value has a signed type (843-851). -/
def visit (o : Order) (signed : Nat → Bool) : Node → Sign
  | .const v => constSign v
  | .unknown i => if signed i then .any else .nonNeg
  | .recur _ off coef => addSign (stepSign (visit o signed coef)) (visit o signed off)
  | .add cs => visitAdd o signed cs
  | .mul a b =>
    let (x, y) := if o.uid b ≤ o.uid a then (visit o signed a, visit o signed b)
      else (visit o signed b, visit o signed a)
    if x = .any then .any else mulSign x y
  | .neg a => negSign (visit o signed a)
  | .cant => .any
/-- scalar_analysis.cpp:899-910 `VisitExpr` for an addition. An addition without children, for
which the code would read past the end, has no sign. -/
def visitAdd (o : Order) (signed : Nat → Bool) : List Node → Sign
  | [] => .any
  | c :: cs => visitRest o signed (visit o signed c) cs
/-- The loop of `VisitExpr`. -/
def visitRest (o : Order) (signed : Nat → Bool) (acc : Sign) : List Node → Sign
  | [] => acc
  | c :: cs => if acc = .any then .any else visitRest o signed (addSign acc (visit o signed c)) cs
end

/-- scalar_analysis.cpp:660-690 `Eval`: `none` when nothing was concluded. -/
def evalSign (s : Sign) (orEqualZero : Bool) : Option Bool :=
  match s with
  | .any => none
  | .neg => some false
  | .nonPos => if !orEqualZero then none else some false
  | .pos => some true
  | .nonNeg => if !orEqualZero then none else some true

/-- scalar_analysis.cpp:916-919 `IsAlwaysGreaterThanZero`. -/
def isAlwaysGreaterThanZero (o : Order) (signed : Nat → Bool) (n : Node) : Option Bool :=
  evalSign (visit o signed n) false

/-- scalar_analysis.cpp:921-924 `IsAlwaysGreaterOrEqualToZero`. -/
def isAlwaysGreaterOrEqualToZero (o : Order) (signed : Nat → Bool) (n : Node) : Option Bool :=
  evalSign (visit o signed n) true

/-! ## Division -/

/-- scalar_analysis.cpp:930-952 `RemoveOneNodeFromMultiplyChain`; `.mul a b` is `mul`. Line 948
multiplies with `rhs`, which still is the old right-hand side. -/
def removeFromChain (o : Order) (node : Node) : Node → Except Err Node
  | .mul a b => do
    let first := decide (o.uid b ≤ o.uid a)
    let lhs := if first then a else b
    let rhs := if first then b else a
    if lhs = node then return rhs
    else if rhs = node then return lhs
    else
      let rl ← (if first then removeFromChain o node a else removeFromChain o node b)
      if rl ≠ lhs then createMultiply rl rhs
      else
        let rr ← (if first then removeFromChain o node b else removeFromChain o node a)
        if rr ≠ rhs then createMultiply rr rhs
        else return .mul a b
  | n => .ok n

/-- scalar_analysis.cpp:955-984 `SExpression::operator/`, with both operands already simplified.
C++ division cuts towards zero, `INT64_MIN / -1` overflows. The quotient is simplified when it is
made an `SExpression` (scalar_analysis.h:200-202). -/
def divide (o : Order) (simp : Node → Except Err Node) (lhs rhs : Node) :
    Except Err (Node × Int) := do
  let (q, r) ← (match lhs, rhs with
    | _, .const 0 => .ok (.cant, 0)
    | .const v, .const w => do
      let q ← i64 (v.tdiv w)
      return (.const q, v.tmod w)
    | .mul _ _, _ => do
      let res ← removeFromChain o rhs lhs
      if res ≠ lhs then return (res, 0) else return (.cant, 0)
    | _, _ => .ok (.cant, 0))
  return (← simp q, r)

end Verif.ScalarEvo
