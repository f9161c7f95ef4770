import Verif.Propagator.Term
import Verif.DomTree.Core
/-!
# Properties of the SSA propagator (C52)
-/
set_option linter.unusedSectionVars false
namespace Verif.Propagator
open Verif.Cfa Verif.Cfa.Spec Spec
variable {I B V : Type} [DecidableEq I] [DecidableEq B]
variable {p : Prog I B} {visit : V → List (B × B) → I → V × Answer B}

/-- Rounds of the loop that suffice for any visit function: one per edge, and one per use
and change of status. -/
def rounds [Blocks I] [Blocks B] (p : Prog I B) : Nat :=
  (Blocks.all (B := B × B)).length + 3 * uses p * (Blocks.all (B := I)).length + 2

/-- C52, termination: whatever the visit function does, and even if the function is not in SSA
form, the propagator stops. -/
theorem run_terminates [Blocks I] [Blocks B] (p : Prog I B) (visit : V → List (B × B) → I → V × Answer B)
    (v : V) (fuel : Nat) (h : rounds p ≤ fuel) : run p visit v fuel ≠ .outOfFuel := by
  refine loop_ends fuel _ _ (Nat.lt_of_lt_of_le ?_ h)
  have h1 := potential_edge (p := p) p.pseudoEntry p.entry
    ({ ssa := [], blocks := [], simulated := [], dns := [], edges := [], status := fun _ => none, val := v, trace := [] } : State I B V)
  refine Nat.lt_of_le_of_lt h1 ?_
  unfold potential rounds
  have h2 : unseen ([] : List (B × B)) ≤ (Blocks.all (B := B × B)).length := List.countP_le_length
  have h3 : ∀ l : List I, total l (fun _ => weight none) = 3 * l.length := by
    intro l
    induction l with
    | nil => rfl
    | cons a l ih => simp only [total, List.map_cons, List.sum_cons, List.length_cons, weight] at ih ⊢; omega
  simp only [List.length_nil]
  rw [h3, ← Nat.mul_assoc, Nat.mul_comm (uses p) 3]
  omega

/-- C52, safety: on a function in SSA form no lookup of the propagator fails. -/
theorem run_no_fault (wf : WellFormed p) (cs : ChoosesSuccessors p visit) (v : V) (fuel : Nat) :
    run p visit v fuel ≠ .fault :=
  (loop_inv wf cs fuel _ _ (init_inv wf v)).1

/-- C52, result: when the propagator is done, the blocks simulated are those reachable along
executable edges, the executable edges are those the answers of the visit function call for, and
all instructions are up to date with the statuses of what they use. -/
theorem run_settles (wf : WellFormed p) (cs : ChoosesSuccessors p visit) (v : V) (fuel : Nat) {r s}
    (h : run p visit v fuel = .done r s) : Settled p s := by
  obtain ⟨h1, h2, h3⟩ := (loop_inv wf cs fuel _ _ (init_inv wf v)).2 r s h
  exact h1.settled h2 h3

/-- The visit function keeps, in its own data, a bound on the status of each instruction, and
never answers with less; it never fails. -/
structure Ascending (visit : V → List (B × B) → I → V × Answer B) (σ : V → I → Nat) : Prop where
  answers : ∀ v e i, (visit v e i).2.1 ≠ none
  above : ∀ v e i st, (visit v e i).2.1 = some st → σ v i ≤ st.rank
  keeps : ∀ v e i st, (visit v e i).2.1 = some st → st.rank ≤ σ (visit v e i).1 i
  grows : ∀ v e i j, σ v j ≤ σ (visit v e i).1 j

section
variable {σ : V → I → Nat}

/-- statuses recorded are within the bound -/
def Bounded (σ : V → I → Nat) (s : State I B V) : Prop := ∀ i o, s.status i = some o → o.rank ≤ σ s.val i

theorem addControlEdge_val (p : Prog I B) (b d : B) (s : State I B V) : (addControlEdge p b d s).val = s.val ∧
    (addControlEdge p b d s).status = s.status := by
  unfold addControlEdge; split
  · simp
  · split <;> simp

theorem addControlEdges_val (p : Prog I B) (b : B) : ∀ (ds : List B) (s : State I B V),
    (addControlEdges p b ds s).val = s.val ∧ (addControlEdges p b ds s).status = s.status
  | [], s => by simp [addControlEdges]
  | d :: ds, s => by
    unfold addControlEdges
    have h1 := addControlEdges_val p b ds (addControlEdge p b d s)
    have h2 := addControlEdge_val p b d s
    exact ⟨h1.1.trans h2.1, h1.2.trans h2.2⟩

theorem simulate_bounded (as : Ascending visit σ) {i : I} {s : State I B V} (hs : Bounded σ s) :
    simulate p visit i s = .fault ∨ ∃ s' ch, simulate p visit i s = .ok s' ch ∧ Bounded σ s' := by
  unfold simulate
  by_cases hd : i ∈ s.dns
  · rw [if_pos hd]; exact .inr ⟨s, _, rfl, hs⟩
  · rw [if_neg hd]
    have a1 := as.answers s.val s.edges i
    have a2 := as.above s.val s.edges i
    have a3 := as.keeps s.val s.edges i
    have a4 := as.grows s.val s.edges i
    generalize visit s.val s.edges i = a at *
    obtain ⟨v, st, dest⟩ := a
    cases st with
    | none => exact absurd rfl a1
    | some st =>
      dsimp only at *
      cases p.block i with
      | none => exact .inl rfl
      | some b =>
        dsimp only
        have hord : descends (s.status i) st = false := by
          cases ho : s.status i with
          | none => rfl
          | some o =>
            have := hs i o ho
            have := a2 st rfl
            simp only [descends, decide_eq_false_iff_not]; omega
        rw [hord]
        simp only [Bool.false_eq_true, if_false]
        have key : ∀ s' : State I B V, s'.val = v →
            s'.status = (fun j => if j = i then some st else s.status j) → Bounded σ s' := by
          intro s' h1 h2 j o ho
          rw [h2] at ho
          dsimp only at ho
          rw [h1]
          by_cases hj : j = i
          · rw [if_pos hj] at ho
            cases ho
            rw [hj]; exact a3 st rfl
          · rw [if_neg hj] at ho
            exact Nat.le_trans (hs j o ho) (a4 j)
        have ssav : ∀ s : State I B V, (addSSAEdges p i s).val = s.val ∧ (addSSAEdges p i s).status = s.status :=
          fun s => ⟨rfl, rfl⟩
        cases st with
        | varying =>
          dsimp only
          split
          · cases p.succs b with
            | nil => exact .inl rfl
            | cons d ds =>
              refine .inr ⟨_, _, rfl, key _ ?_ ?_⟩
              · rw [(addControlEdges_val p b _ _).1]; split <;> rfl
              · rw [(addControlEdges_val p b _ _).2]; split <;> rfl
          · refine .inr ⟨_, _, rfl, key _ ?_ ?_⟩ <;> split <;> rfl
        | notInteresting =>
          dsimp only
          refine .inr ⟨_, _, rfl, key _ ?_ ?_⟩ <;> simp <;> split <;> rfl
        | interesting =>
          dsimp only
          refine .inr ⟨_, _, rfl, key _ ?_ ?_⟩
          · cases dest
            · dsimp only; split <;> split <;> rfl
            · dsimp only
              have e : ∀ s2 : State I B V, (if hasOperandsToSimulate p s2 i b = true then s2
                  else { s2 with dns := i :: s2.dns }).val = s2.val := fun s2 => by split <;> rfl
              rw [e, (addControlEdge_val p b _ _).1]
              split <;> rfl
          · cases dest
            · dsimp only; split <;> split <;> rfl
            · dsimp only
              have e : ∀ s2 : State I B V, (if hasOperandsToSimulate p s2 i b = true then s2
                  else { s2 with dns := i :: s2.dns }).status = s2.status := fun s2 => by split <;> rfl
              rw [e, (addControlEdge_val p b _ _).2]
              split <;> rfl

theorem all_bounded (as : Ascending visit σ) : ∀ (l : List I) (s : State I B V) (c : Bool), Bounded σ s →
    simulateAll p visit l s c = .fault ∨ ∃ s' ch, simulateAll p visit l s c = .ok s' ch ∧ Bounded σ s'
  | [], s, c, hs => .inr ⟨s, c, rfl, hs⟩
  | i :: l, s, c, hs => by
    unfold simulateAll
    rcases simulate_bounded (p := p) as (i := i) hs with h | ⟨s1, c1, h, hs1⟩
    · rw [h]; exact .inl rfl
    · rw [h]; exact all_bounded as l s1 _ hs1

theorem block_bounded (as : Ascending visit σ) (b : B) (s : State I B V) (hs : Bounded σ s) :
    simulateBlock p visit b s = .fault ∨ ∃ s' ch, simulateBlock p visit b s = .ok s' ch ∧ Bounded σ s' := by
  unfold simulateBlock
  split
  · exact .inr ⟨s, _, rfl, hs⟩
  · rcases all_bounded (p := p) as (p.phis b) s false hs with h | ⟨s1, c1, h, hs1⟩
    · rw [h]; exact .inl rfl
    · rw [h]
      dsimp only
      split
      · exact .inr ⟨s1, _, rfl, hs1⟩
      · rcases all_bounded (p := p) as (p.insts b) s1 c1 hs1 with h | ⟨s2, c2, h, hs2⟩
        · rw [h]; exact .inl rfl
        · rw [h]
          dsimp only
          cases p.succs b with
          | nil => exact .inl rfl
          | cons d ds =>
            cases ds with
            | nil =>
              refine .inr ⟨_, _, rfl, fun j o ho => ?_⟩
              rw [(addControlEdge_val p b _ _).2] at ho
              rw [(addControlEdge_val p b _ _).1]
              exact hs2 j o ho
            | cons => exact .inr ⟨_, _, rfl, hs2⟩

theorem loop_bounded (as : Ascending visit σ) : ∀ (fuel : Nat) (s : State I B V) (c : Bool), Bounded σ s →
    loop p visit fuel s c = .fault ∨ loop p visit fuel s c = .outOfFuel ∨
    ∃ r s', loop p visit fuel s c = .done r s'
  | 0, _, _, _ => .inr (.inl rfl)
  | fuel + 1, s, c, hs => by
    unfold loop
    cases hq : s.blocks with
    | cons b rest =>
      dsimp only
      rcases block_bounded (p := p) as b { s with blocks := rest } hs with h | ⟨s1, c1, h, hs1⟩
      · rw [h]; exact .inl rfl
      · rw [h]; exact loop_bounded as fuel s1 _ hs1
    | nil =>
      dsimp only
      cases hss : s.ssa with
      | nil => exact .inr (.inr ⟨_, _, rfl⟩)
      | cons i rest =>
        dsimp only
        rcases simulate_bounded (p := p) as (i := i) (s := { s with ssa := rest, blocks := [] }) hs with h | ⟨s1, c1, h, hs1⟩
        · rw [h]; exact .inl rfl
        · rw [h]; exact loop_bounded as fuel s1 _ hs1
end

/-- C52, together: on a function in SSA form, for a visit function whose answers only move
down the lattice, the propagator comes to an end, and then everything is settled. -/
theorem run_completes [Blocks I] [Blocks B] {σ : V → I → Nat} (wf : WellFormed p) (cs : ChoosesSuccessors p visit)
    (as : Ascending visit σ) (v : V) (fuel : Nat) (h : rounds p ≤ fuel) :
    ∃ r s, run p visit v fuel = .done r s ∧ Settled p s := by
  have hb : Bounded σ (initState p v : State I B V) := by
    intro i o ho
    unfold initState at ho
    rw [(addControlEdge_val p _ _ _).2] at ho
    cases ho
  rcases loop_bounded (p := p) as fuel _ false hb with h1 | h1 | ⟨r, s, h1⟩
  · exact absurd h1 (run_no_fault wf cs v fuel)
  · exact absurd h1 (run_terminates p visit v fuel h)
  · exact ⟨r, s, h1, run_settles wf cs v fuel h1⟩

/-! ## A loop -/
namespace Example

/-- `%1 = phi [%4, block 1], [%1, block 2]; %2 = f(%1); br %2 ? block 2 : return`, in block 2,
entered from block 1. Block 0 and 3 are the pseudo entry and exit. -/
def prog : Prog (Fin 5) (Fin 4) where
  insts b := if b = 1 then [0] else if b = 2 then [1, 2, 3] else []
  phis b := if b = 2 then [1] else []
  block i := if i = 0 then some 1 else if i = 4 then none else some 2
  users i := if i = 1 then [1, 2] else if i = 2 then [3] else if i = 4 then [1] else []
  isPhi i := i == 1
  args i := if i = 1 then [(4, 1), (1, 2)] else []
  inDefs i := if i = 2 then [1] else if i = 3 then [2] else []
  terminator i := i == 0 || i == 3
  succs b := if b = 0 then [1] else if b = 1 then [2] else if b = 2 then [2, 3] else []
  pseudoEntry := 0
  pseudoExit := 3
  entry := 1

theorem split_cases {α : Type} {a x : α} {l₁ l₂ m : List α} (h : a :: m = l₁ ++ x :: l₂) :
    (l₁ = [] ∧ a = x ∧ m = l₂) ∨ ∃ l, l₁ = a :: l ∧ m = l ++ x :: l₂ := by
  cases l₁ with
  | nil => cases h; exact .inl ⟨rfl, rfl, rfl⟩
  | cons c l => cases h; exact .inr ⟨l, rfl, rfl⟩

theorem insts_split {b : Fin 4} {l₁ l₂ : List (Fin 5)} {i : Fin 5} (h : prog.insts b = l₁ ++ i :: l₂) :
    (b = 1 ∧ i = 0 ∧ l₂ = []) ∨ (b = 2 ∧ ((i = 1 ∧ l₂ = [2, 3]) ∨ (i = 2 ∧ l₂ = [3]) ∨ (i = 3 ∧ l₂ = []))) := by
  by_cases h1 : b = 1
  · subst h1
    have h : [0] = l₁ ++ i :: l₂ := h
    rcases split_cases h with ⟨-, rfl, rfl⟩ | ⟨l, -, h⟩
    · exact .inl ⟨rfl, rfl, rfl⟩
    · cases l <;> cases h
  · by_cases h2 : b = 2
    · subst h2
      have h : [1, 2, 3] = l₁ ++ i :: l₂ := h
      refine .inr ⟨rfl, ?_⟩
      rcases split_cases h with ⟨-, rfl, rfl⟩ | ⟨l, -, h⟩
      · exact .inl ⟨rfl, rfl⟩
      · rcases split_cases h with ⟨-, rfl, rfl⟩ | ⟨l, -, h⟩
        · exact .inr (.inl ⟨rfl, rfl⟩)
        · rcases split_cases h with ⟨-, rfl, rfl⟩ | ⟨l, -, h⟩
          · exact .inr (.inr ⟨rfl, rfl⟩)
          · cases l <;> cases h
    · simp [prog, h1, h2] at h

theorem prog_wf : WellFormed prog where
  block := by decide
  phis := by decide
  users := by
    intro i d h
    unfold Uses at h
    revert i d
    decide
  last b l₁ i l₂ ht h := by
    rcases insts_split h with ⟨-, -, h⟩ | ⟨-, ⟨rfl, -⟩ | ⟨rfl, -⟩ | ⟨-, h⟩⟩
    · exact h
    · cases ht
    · cases ht
    · exact h
  termPhi := by decide
  termUse := by
    intro i d
    unfold Uses
    revert i d
    decide
  order b l₁ d l₂ i h hi hp hu := by
    unfold Uses at hu
    rcases insts_split h with ⟨-, rfl, rfl⟩ | ⟨-, ⟨rfl, rfl⟩ | ⟨rfl, rfl⟩ | ⟨rfl, rfl⟩⟩
      <;> (clear h; revert i b; decide)
  phiArgs i b d q hp hb ha := by
    have hi : i = 1 := by clear ha hb; revert i; decide
    subst hi
    have : (d, q) = (4, 1) ∨ (d, q) = (1, 2) := by simpa [prog] using ha
    rcases this with h | h <;> cases h
    · exact ⟨by decide, fun bd h => by cases h⟩
    · refine ⟨by decide, fun bd h => ?_⟩
      cases h
      exact DomTree.dom_self _ _ _
  succs := by decide
  exit := by decide
  entry := by decide

/-- Each value is one number. The phi counts the executable edges into the loop, `%2` copies
it; nothing but the branches varies. -/
def count (v : Fin 5 → Nat) (e : List (Fin 4 × Fin 4)) (i : Fin 5) : (Fin 5 → Nat) × Answer (Fin 4) :=
  if i = 1 then (fun j => if j = 1 then (if (2, 2) ∈ e then 2 else 1) else v j, some .interesting, none)
  else if i = 2 then (fun j => if j = 2 then v 1 else v j, some .interesting, none)
  else (v, some .varying, none)

def countRank (_ : Fin 5 → Nat) (i : Fin 5) : Nat := if i = 1 ∨ i = 2 then 1 else 2

theorem count_chooses : ChoosesSuccessors prog count := by
  intro v e i st d h
  unfold count at h
  split at h
  · cases h
  · split at h <;> cases h

theorem count_ascending : Ascending count countRank where
  answers v e i := by unfold count; split; simp; split <;> simp
  above v e i st h := by
    unfold count at h
    unfold countRank
    by_cases h1 : i = 1
    · rw [if_pos h1] at h; cases h; simp [h1, Status.rank]
    · by_cases h2 : i = 2
      · rw [if_neg h1, if_pos h2] at h; cases h; simp [h2, Status.rank]
      · rw [if_neg h1, if_neg h2] at h; cases h; simp [h1, h2, Status.rank]
  keeps v e i st h := by
    unfold count at h
    unfold countRank
    by_cases h1 : i = 1
    · rw [if_pos h1] at h; cases h; simp [h1, Status.rank]
    · by_cases h2 : i = 2
      · rw [if_neg h1, if_pos h2] at h; cases h; simp [h2, Status.rank]
      · rw [if_neg h1, if_neg h2] at h; cases h; simp [h1, h2, Status.rank]
  grows v e i j := Nat.le_refl _

def valOf : Outcome (State (Fin 5) (Fin 4) (Fin 5 → Nat)) → Option (Nat × Nat × List (Fin 5))
  | .done _ s => some (s.val 1, s.val 2, s.trace.map (·.inst))
  | _ => none

/-- The loop is simulated as expected: the phi is visited again when the back edge has become
executable. -/
theorem count_run : valOf (run prog count (fun _ => 0) 10) = some (2, 1, [1, 3, 2, 1, 1, 0]) := by
  decide +kernel

example : ∃ r s, run prog count (fun _ => 0) (rounds prog) = .done r s ∧ Settled prog s :=
  run_completes prog_wf count_chooses count_ascending _ _ (Nat.le_refl _)

end Example

/-- C52, limit: only changes of status are propagated. The header promises that at the end
"values in the value table are guaranteed to be stable" (source/opt/propagator.h:125-126), but a visit function
that answers "interesting" again with another value leaves users of that value with what they
computed from the old one: here `%2` is a copy of `%1`, and they differ. -/
theorem value_change_not_propagated : ∃ (p : Prog (Fin 5) (Fin 4)) (visit : (Fin 5 → Nat) → List (Fin 4 × Fin 4) → Fin 5 → (Fin 5 → Nat) × Answer (Fin 4))
    (σ : (Fin 5 → Nat) → Fin 5 → Nat) (r : Bool) (s : State (Fin 5) (Fin 4) (Fin 5 → Nat)),
    WellFormed p ∧ ChoosesSuccessors p visit ∧ Ascending visit σ ∧ run p visit (fun _ => 0) 10 = .done r s ∧
    p.inDefs 2 = [1] ∧ (∀ v e, (visit v e 2).1 2 = v 1) ∧ s.val 2 ≠ s.val 1 := by
  have h := Example.count_run
  cases hr : run Example.prog Example.count (fun _ => 0) 10 with
  | fault => rw [hr] at h; cases h
  | descended => rw [hr] at h; cases h
  | outOfFuel => rw [hr] at h; cases h
  | failed => rw [hr] at h; cases h
  | done r s =>
    rw [hr] at h
    simp only [Example.valOf, Option.some.injEq, Prod.mk.injEq] at h
    exact ⟨_, _, _, r, s, Example.prog_wf, Example.count_chooses, Example.count_ascending, hr, rfl,
      fun v e => rfl, by omega⟩

end Verif.Propagator
