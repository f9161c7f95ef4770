/-!
# Control-flow analysis  (source/cfa.h)

Blocks are the elements of a finite type `B`; two blocks with the same id are the
same block (`DepthFirstTraversal` compares ids, the rest of the file compares
pointers; every caller builds its blocks from an id-indexed map, so the two agree).
Successor and predecessor functions return lists. `none` stands for undefined
behaviour, or for a loop that ran out of the step budget `fuel`.
-/
namespace Verif.Cfa

/-- A finite set of basic blocks. -/
class Blocks (B : Type) where
  all : List B
  complete : ∀ b, b ∈ all

instance {n : Nat} : Blocks (Fin n) := ⟨List.finRange n, List.mem_finRange⟩

/-- Calls made by `DepthFirstTraversal` to its callbacks, in order. -/
inductive Event (B : Type) where
  | pre (b : B)
  | post (b : B)
  | back (src dst : B)
  deriving DecidableEq

variable {B : Type} [DecidableEq B] [Blocks B]

/-- Number of blocks not in the processed set (termination measure only). -/
def unseen (P : List B) : Nat := (Blocks.all (B := B)).countP fun b => decide (b ∉ P)

theorem countP_lt (l : List B) (P : List B) (c : B) (hc : c ∈ l) (hP : c ∉ P) :
    l.countP (fun b => decide (b ∉ c :: P)) < l.countP (fun b => decide (b ∉ P)) := by
  induction l with
  | nil => simp at hc
  | cons a l ih =>
    rw [List.countP_cons, List.countP_cons]
    have hle : l.countP (fun b => decide (b ∉ c :: P)) ≤ l.countP (fun b => decide (b ∉ P)) := by
      apply List.countP_mono_left
      intro x _ hx
      simp only [List.mem_cons, not_or, decide_eq_true_eq] at hx ⊢
      exact hx.2
    rcases List.mem_cons.mp hc with rfl | hc
    · simp [hP] at hle ⊢; omega
    · have := ih hc
      by_cases h : a ∈ P
      · have h2 : a ∈ c :: P := List.mem_cons_of_mem _ h
        simp only [h, h2, not_true_eq_false, decide_false, Bool.false_eq_true, if_false]
        omega
      · simp only [h, not_false_eq_true, decide_true, if_true]
        split <;> omega

theorem unseen_lt (P : List B) (c : B) (hP : c ∉ P) : unseen (c :: P) < unseen P :=
  countP_lt _ _ _ (Blocks.complete c) hP

/-- The `while` loop of `DepthFirstTraversal`, source/cfa.h:198-216.
`processed` is the id set, `work` the work list with its back (top) first; each
entry holds a block and the successors its iterator has not passed yet.
The result is the sequence of callback calls made from this state on.
`FindInWorkList` (lines 157-163) is the membership test in the work list. -/
def dfsLoop {B : Type} [DecidableEq B] [Blocks B] (succ : B → List B) (terminal : B → Bool) (processed : List B) :
    List (B × List B) → List (Event B)
  | [] => []
  | (b, rest) :: work =>
    if terminal b then .post b :: dfsLoop succ terminal processed work
    else match rest with
      | [] => .post b :: dfsLoop succ terminal processed work
      | child :: rest =>
        (if child ∈ b :: work.map (·.1) then [.back b child] else []) ++
        (if h : child ∈ processed then
          dfsLoop succ terminal processed ((b, rest) :: work)
        else
          .pre child ::
            dfsLoop succ terminal (child :: processed)
              ((child, succ child) :: (b, rest) :: work))
termination_by work => (unseen processed, (work.map fun w => w.2.length + 1).sum)
decreasing_by
  · apply Prod.Lex.right; simp
  · apply Prod.Lex.right; simp
  · apply Prod.Lex.right; simp
  · apply Prod.Lex.left; exact unseen_lt _ _ h

/-- `DepthFirstTraversal`, source/cfa.h:176-217. All callbacks are recorded; the
overload without `backedge` (165-173) makes the same `pre`/`post` calls. -/
def depthFirst (succ : B → List B) (terminal : B → Bool) (entry : B) : List (Event B) :=
  .pre entry :: dfsLoop succ terminal [entry] [(entry, succ entry)]

def preOf (es : List (Event B)) : List B :=
  es.filterMap fun | .pre b => some b | _ => none
def postOf (es : List (Event B)) : List B :=
  es.filterMap fun | .post b => some b | _ => none
def backOf (es : List (Event B)) : List (B × B) :=
  es.filterMap fun | .back a b => some (a, b) | _ => none

/-! ## CalculateDominators, source/cfa.h:219-308 -/

/-- `idoms`: block ↦ (dominator index, postorder index); absent blocks are those not
in the map. source/cfa.h:222-228. -/
abbrev Idoms (B : Type) := B → Option (Nat × Nat)

/-- Initial map, source/cfa.h:229-231. -/
def initIdoms (N : Nat) : List B → Nat → Idoms B → Idoms B
  | [], _, m => m
  | b :: bs, i, m => initIdoms N bs (i + 1) (fun x => if x = b then some (N, i) else m x)

/-- One of the two inner `while (fingerX < fingerY)` loops, source/cfa.h:261-266. -/
def climb (po : List B) (m : Idoms B) : Nat → Nat → Nat → Option Nat
  | 0, _, _ => none
  | fuel + 1, f, g =>
    if f < g then
      match po[f]? with
      | none => none                          -- postorder[finger] out of range
      | some b => match m b with
        | none => none
        | some (d, _) => climb po m fuel d g
    else some f

/-- `while (finger1 != finger2)`, source/cfa.h:258-268. -/
def intersect (po : List B) (m : Idoms B) : Nat → Nat → Nat → Option Nat
  | 0, _, _ => none
  | fuel + 1, f1, f2 =>
    if f1 = f2 then some f1
    else match climb po m fuel f1 f2 with
      | none => none
      | some f1 => match climb po m fuel f2 f1 with
        | none => none
        | some f2 => intersect po m fuel f1 f2

/-- The loop over all other predecessors, source/cfa.h:251-270. -/
def meetPreds (fuel : Nat) (po : List B) (m : Idoms B) (idom : B) : List B → Nat → Option Nat
  | [], acc => some acc
  | p :: ps, acc =>
    if idom = p then meetPreds fuel po m idom ps acc
    else match m p with
      | none => meetPreds fuel po m idom ps acc
      | some (d, i) =>
        if d ≠ po.length then
          match intersect po m fuel i acc with
          | none => none
          | some a => meetPreds fuel po m idom ps a
        else meetPreds fuel po m idom ps acc

/-- Loop body for one block, source/cfa.h:238-274. Returns the map and whether it
changed. -/
def visitBlock (fuel : Nat) (po : List B) (pred : B → List B) (m : Idoms B) (b : B) :
    Option (Idoms B × Bool) :=
  match (pred b).find? (fun p => match m p with | some (d, _) => d != po.length | none => false) with
  | none => some (m, false)
  | some idom => match m idom with
    | none => none
    | some (_, ii) => match meetPreds fuel po m idom (pred b) ii with
      | none => none
      | some idx => match m b with
        | none => none
        | some (d, bi) =>
          if d ≠ idx then some (fun x => if x = b then some (idx, bi) else m x, true)
          else some (m, false)

/-- One pass of the `for` loop, source/cfa.h:237-275, over the remaining blocks. -/
def sweep (fuel : Nat) (po : List B) (pred : B → List B) : List B → Idoms B → Bool →
    Option (Idoms B × Bool)
  | [], m, ch => some (m, ch)
  | b :: bs, m, ch => match visitBlock fuel po pred m b with
    | none => none
    | some (m, c) => sweep fuel po pred bs m (ch || c)

/-- `while (changed)`, source/cfa.h:234-276. -/
def iterate (fuel : Nat) (po : List B) (pred : B → List B) : Nat → Idoms B → Option (Idoms B)
  | 0, _ => none
  | n + 1, m => match sweep fuel po pred po.reverse.tail m false with
    | none => none
    | some (m, true) => iterate fuel po pred n m
    | some (m, false) => some m

/-- Result construction, source/cfa.h:278-307. The unordered map is listed and then
sorted by postorder index, which is a unique key; the model lists it in that order. -/
def edgesOf (po : List B) (m : Idoms B) : List (B × B) :=
  po.zipIdx.filterMap fun (b, i) =>
    match m b with
    | some (d, pi) =>
      if pi = i then
        (po[if d = po.length then pi else d]?).map fun x => (b, x)
      else none
    | none => none

/-- `CalculateDominators`, source/cfa.h:219-308. `fuel` bounds every loop. -/
def calculateDominators (fuel : Nat) (po : List B) (pred : B → List B) : Option (List (B × B)) :=
  match po.getLast? with
  | none => none                               -- postorder.back() of an empty vector
  | some root =>
    let m := initIdoms po.length po 0 (fun _ => none)
    let m : Idoms B := fun x => if x = root then (m root).map (fun e => (e.2, e.2)) else m x
    match iterate fuel po pred fuel m with
    | none => none
    | some m => some (edgesOf po m)

/-! ## TraversalRoots and ComputeAugmentedCFG -/

/-- First loop of `TraversalRoots`, source/cfa.h:330-336; `none` = the assertion
"Malformed graph!" fails. State: visited set and result so far. -/
def rootsNoPred (succ pred : B → List B) : List B → List B → List B → Option (List B × List B)
  | [], visited, res => some (visited, res)
  | b :: bs, visited, res =>
    if (pred b).isEmpty then
      if b ∈ visited then none
      else rootsNoPred succ pred bs
        (visited ++ preOf (depthFirst succ (fun _ => false) b)) (res ++ [b])
    else rootsNoPred succ pred bs visited res

/-- Second loop of `TraversalRoots`, source/cfa.h:339-344. -/
def rootsStranded (succ : B → List B) : List B → List B → List B → List B × List B
  | [], visited, res => (visited, res)
  | b :: bs, visited, res =>
    if b ∈ visited then rootsStranded succ bs visited res
    else rootsStranded succ bs
      (visited ++ preOf (depthFirst succ (fun _ => false) b)) (res ++ [b])

/-- `TraversalRoots`, source/cfa.h:310-347. -/
def traversalRoots (blocks : List B) (succ pred : B → List B) : Option (List B) :=
  match rootsNoPred succ pred blocks [] [] with
  | none => none
  | some (visited, res) => some (rootsStranded succ blocks visited res).2

/-- `ComputeAugmentedCFG`, source/cfa.h:349-394, together with the way its two maps
are read back (source/val/function.cpp:248-262): the augmented successor and
predecessor functions. `pe`/`px` are the pseudo entry and exit blocks. Each map
entry is created once per (distinct) root. -/
def augmented (ordered : List B) (pe px : B) (succ pred : B → List B) :
    Option ((B → List B) × (B → List B)) :=
  match traversalRoots ordered succ pred, traversalRoots ordered.reverse pred succ with
  | some sources, some sinks =>
    some
      (fun b => if b ∈ sinks then px :: succ b else if b = pe then sources else succ b,
       fun b => if b = px then sinks else if b ∈ sources then pe :: pred b else pred b)
  | _, _ => none

end Verif.Cfa
