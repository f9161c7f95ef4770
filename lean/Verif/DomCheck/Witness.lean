import Verif.DomCheck.Exact
/-!
# Evaluating the check on concrete modules

The search is defined by well-founded recursion, which the kernel does not unfold. `dfsF`
is the same loop with a step budget; its answers are the search's.
-/
namespace Verif.DomCheck
open Verif.Cfa Verif.Cfa.Spec Spec
variable {B : Type} [DecidableEq B] [Blocks B]

def dfsF (succ : B → List B) : Nat → List B → List (B × List B) → Option (List (Event B))
  | _, _, [] => some []
  | 0, _, _ => none
  | n + 1, processed, (b, []) :: work =>
    (dfsF succ n processed work).map (fun l => .post b :: l)
  | n + 1, processed, (b, child :: rest) :: work =>
    let back : List (Event B) := if child ∈ b :: work.map (·.1) then [.back b child] else []
    if child ∈ processed then
      (dfsF succ n processed ((b, rest) :: work)).map (fun l => back ++ l)
    else (dfsF succ n (child :: processed) ((child, succ child) :: (b, rest) :: work)).map
      (fun l => back ++ .pre child :: l)

theorem dfsF_eq (succ : B → List B) : ∀ n processed work l, dfsF succ n processed work = some l →
    dfsLoop succ (fun _ => false) processed work = l
  | _, processed, [], l, h => by
    have : some [] = some l := by rw [← h]; unfold dfsF; rfl
    cases this; simp [dfsLoop]
  | 0, processed, _ :: _, l, h => by simp [dfsF] at h
  | n + 1, processed, (b, []) :: work, l, h => by
    simp only [dfsF, Option.map_eq_some_iff] at h
    obtain ⟨l', h1, rfl⟩ := h
    rw [dfsLoop]
    simp [dfsF_eq succ n _ _ _ h1]
  | n + 1, processed, (b, child :: rest) :: work, l, h => by
    simp only [dfsF] at h
    rw [dfsLoop]
    simp only [Bool.false_eq_true, if_false]
    by_cases hc : child ∈ processed
    · rw [if_pos hc, Option.map_eq_some_iff] at h
      obtain ⟨l', h1, rfl⟩ := h
      rw [dif_pos hc, dfsF_eq succ n _ _ _ h1]
    · rw [if_neg hc, Option.map_eq_some_iff] at h
      obtain ⟨l', h1, rfl⟩ := h
      rw [dif_neg hc, dfsF_eq succ n _ _ _ h1]

theorem depthFirst_eq (succ : B → List B) (n : Nat) (entry : B) (l : List (Event B))
    (h : dfsF succ n [entry] [(entry, succ entry)] = some l) :
    depthFirst succ (fun _ => false) entry = .pre entry :: l := by
  unfold depthFirst; rw [dfsF_eq succ n _ _ _ h]

/-- Blocks visited by a search. -/
def preF (n : Nat) (succ : B → List B) (b : B) : Option (List B) :=
  match dfsF succ n [b] [(b, succ b)] with
  | none => none
  | some l => some (preOf (.pre b :: l))

theorem preF_eq {n} {succ : B → List B} {b l} (h : preF n succ b = some l) :
    preOf (depthFirst succ (fun _ => false) b) = l := by
  unfold preF at h
  split at h
  · cases h
  · next l' hl => cases h; rw [depthFirst_eq succ n b l' hl]

def noPredF (n : Nat) (succ pred : B → List B) : List B → List B → List B → Option (List B × List B)
  | [], visited, res => some (visited, res)
  | b :: bs, visited, res =>
    if (pred b).isEmpty then
      if b ∈ visited then none
      else match preF n succ b with
        | none => none
        | some l => noPredF n succ pred bs (visited ++ l) (res ++ [b])
    else noPredF n succ pred bs visited res

theorem noPredF_eq {n} {succ pred : B → List B} : ∀ {bs visited res x},
    noPredF n succ pred bs visited res = some x → rootsNoPred succ pred bs visited res = some x
  | [], visited, res, x, h => h
  | b :: bs, visited, res, x, h => by
    unfold noPredF at h
    unfold rootsNoPred
    split
    · next hp =>
      rw [if_pos hp] at h
      split
      · next hv => rw [if_pos hv] at h; cases h
      · next hv =>
        rw [if_neg hv] at h
        split at h
        · cases h
        · next l hl => rw [preF_eq hl]; exact noPredF_eq h
    · next hp => rw [if_neg hp] at h; exact noPredF_eq h

def strandedF (n : Nat) (succ : B → List B) : List B → List B → List B → Option (List B × List B)
  | [], visited, res => some (visited, res)
  | b :: bs, visited, res =>
    if b ∈ visited then strandedF n succ bs visited res
    else match preF n succ b with
      | none => none
      | some l => strandedF n succ bs (visited ++ l) (res ++ [b])

theorem strandedF_eq {n} {succ : B → List B} : ∀ {bs visited res x},
    strandedF n succ bs visited res = some x → rootsStranded succ bs visited res = x
  | [], visited, res, x, h => Option.some.inj h
  | b :: bs, visited, res, x, h => by
    unfold strandedF at h
    unfold rootsStranded
    split
    · next hv => rw [if_pos hv] at h; exact strandedF_eq h
    · next hv =>
      rw [if_neg hv] at h
      split at h
      · cases h
      · next l hl => rw [preF_eq hl]; exact strandedF_eq h

def rootsF (n : Nat) (blocks : List B) (succ pred : B → List B) : Option (List B) :=
  match noPredF n succ pred blocks [] [] with
  | none => none
  | some (visited, res) => match strandedF n succ blocks visited res with
    | none => none
    | some x => some x.2

theorem rootsF_eq {n} {blocks : List B} {succ pred : B → List B} {r}
    (h : rootsF n blocks succ pred = some r) : traversalRoots blocks succ pred = some r := by
  unfold rootsF at h
  unfold traversalRoots
  split at h
  · cases h
  · next v res hv =>
    rw [noPredF_eq hv]
    dsimp only
    split at h
    · cases h
    · next x hx => rw [strandedF_eq hx]; exact h

/-- `Func.idomEdges` with step budget `n` for the searches. -/
def edgesF (n fuel : Nat) (f : Func B) : Option (List (B × B)) :=
  match f.ordered.head? with
  | none => some []
  | some first =>
    match rootsF n f.ordered f.ssucc f.spred, rootsF n f.ordered.reverse f.spred f.ssucc with
    | some src, some snk =>
      let asucc := fun b => if b ∈ snk then f.pseudoExit :: f.ssucc b
        else if b = f.pseudoEntry then src else f.succ b
      let apred := fun b => if b = f.pseudoExit then snk
        else if b ∈ src then f.pseudoEntry :: f.spred b else f.pred b
      match dfsF asucc n [first] [(first, asucc first)] with
      | none => none
      | some l =>
        match calculateDominators fuel (postOf (.pre first :: l)) apred with
        | none => none
        | some edges => some (edges.filter fun e => decide (e.1 ≠ e.2))
    | _, _ => none

theorem edgesF_eq {n fuel} {f : Func B} {e} (h : edgesF n fuel f = some e) : f.idomEdges fuel = some e := by
  unfold edgesF at h
  unfold Func.idomEdges
  split at h
  · next hh => rw [hh]; exact h
  · next first hh =>
    rw [hh]
    split at h
    · next src snk h1 h2 =>
      have ha : f.augmented = some (fun b => if b ∈ snk then f.pseudoExit :: f.ssucc b
          else if b = f.pseudoEntry then src else f.succ b,
         fun b => if b = f.pseudoExit then snk
          else if b ∈ src then f.pseudoEntry :: f.spred b else f.pred b) := by
        simp only [Func.augmented, rootsF_eq h1, rootsF_eq h2]
      rw [ha]
      dsimp only at h ⊢
      split at h
      · cases h
      · next l hl => rw [depthFirst_eq _ n first l hl]; exact h
    · cases h

def reachF (succ : B → List B) : Nat → List B → List B → Option (List B)
  | _, marked, [] => some marked
  | 0, _, _ :: _ => none
  | n + 1, marked, b :: stack =>
    if b ∈ marked then reachF succ n marked stack
    else reachF succ n (b :: marked) ((succ b).reverse ++ stack)

theorem reachF_eq (succ : B → List B) : ∀ {n marked stack r}, reachF succ n marked stack = some r →
    reachLoop succ marked stack = r
  | n, marked, [], r, h => by
    have : some marked = some r := by rw [← h]; unfold reachF; rfl
    cases this; unfold reachLoop; rfl
  | 0, marked, b :: stack, r, h => by simp [reachF] at h
  | n + 1, marked, b :: stack, r, h => by
    unfold reachF at h
    rw [reachLoop]
    split
    · next hb => rw [if_pos hb] at h; exact reachF_eq succ h
    · next hb => rw [if_neg hb] at h; exact reachF_eq succ h

/-- `check` for a module with one function. -/
def checkF (n fuel : Nat) (f : Func B) (insts : List (Inst B)) : Option Bool :=
  match edgesF n fuel f, f.ordered.head? with
  | some edges, some first => match reachF f.succ n [] [first] with
    | none => none
    | some reachable =>
      let m : Module B := ⟨[f], insts⟩
      match checkDefs m (fun b => edges.lookup b) reachable fuel insts [] with
      | none => none
      | some (_, false) => some false
      | some (phis, true) => checkPhis m (fun b => edges.lookup b) reachable fuel phis
  | _, _ => none

theorem checkF_eq {n fuel} {f : Func B} {insts r} (h : checkF n fuel f insts = some r) :
    check fuel ⟨[f], insts⟩ = some r := by
  unfold checkF at h
  unfold check
  split at h
  · next edges first he hf =>
    simp only [idomEdges, edgesF_eq he, List.append_nil]
    split at h
    · cases h
    · next reachable hr =>
      have : reachability [f] = reachable := by
        simp only [reachability, List.flatMap_cons, List.flatMap_nil, List.append_nil, hf, reachF_eq _ hr]
      rw [this]
      exact h
  · cases h

end Verif.DomCheck
