import Verif.Propagator.Props
set_option linter.unusedSimpArgs false
set_option linter.unusedVariables false
set_option linter.unusedSectionVars false
/-!
# The record of the calls determines the data of the visit function
-/
namespace Verif.Propagator
open Spec
variable {I B V : Type} [DecidableEq I] [DecidableEq B]

/-- The calls `t` (newest first), started with the data `v₀`, leave `v`; no status descends, what was
varying is not visited again, and executable edges stay so. -/
inductive Replay (p : Prog I B) (visit : V → List (B × B) → I → V × Answer B) (v₀ : V) :
    List (Call I B) → V → Prop where
  | nil : Replay p visit v₀ [] v₀
  | cons {t v c v'} : Replay p visit v₀ t v → visit v c.seen c.inst = (v', some c.status, c.dest) →
      (∀ c' ∈ t, ∀ x ∈ c'.seen, x ∈ c.seen) → (∀ o, lastStatus t c.inst = some o → o.rank ≤ c.status.rank) →
      lastStatus t c.inst ≠ some .varying →
      p.block c.inst ≠ none → Replay p visit v₀ (c :: t) v'

variable {p : Prog I B} {visit : V → List (B × B) → I → V × Answer B} {v₀ : V}

structure Track (p : Prog I B) (visit : V → List (B × B) → I → V × Answer B) (v₀ : V) (s : State I B V) : Prop where
  replay : Replay p visit v₀ s.trace s.val
  seen : ∀ c ∈ s.trace, ∀ x ∈ c.seen, x ∈ s.edges
  status : ∀ j, s.status j = lastStatus s.trace j
  dns : ∀ j, s.status j = some .varying → j ∈ s.dns

/-- parts of the state that matter here -/
structure Same (s s' : State I B V) : Prop where
  trace : s'.trace = s.trace
  val : s'.val = s.val
  status : s'.status = s.status
  edges : ∀ x ∈ s.edges, x ∈ s'.edges
  dns : ∀ x ∈ s.dns, x ∈ s'.dns

theorem Same.refl (s : State I B V) : Same s s := ⟨rfl, rfl, rfl, fun _ h => h, fun _ h => h⟩

theorem Same.trans {s s' s'' : State I B V} (h : Same s s') (h' : Same s' s'') : Same s s'' :=
  ⟨h'.trace.trans h.trace, h'.val.trans h.val, h'.status.trans h.status,
   fun x hx => h'.edges x (h.edges x hx), fun x hx => h'.dns x (h.dns x hx)⟩

theorem Track.same {s s' : State I B V} (h : Track p visit v₀ s) (e : Same s s') : Track p visit v₀ s' :=
  ⟨by rw [e.trace, e.val]; exact h.replay,
   by rw [e.trace]; exact fun c hc x hx => e.edges x (h.seen c hc x hx),
   by rw [e.trace, e.status]; exact h.status,
   by rw [e.status]; exact fun j hj => e.dns j (h.dns j hj)⟩

theorem addControlEdge_same (p : Prog I B) (b d : B) (s : State I B V) : Same s (addControlEdge p b d s) := by
  unfold addControlEdge
  split
  · exact .refl _
  · split
    · exact .refl _
    · exact ⟨rfl, rfl, rfl, fun x hx => List.mem_cons_of_mem _ hx, fun _ h => h⟩

theorem addControlEdges_same (p : Prog I B) (b : B) : ∀ (ds : List B) (s : State I B V),
    Same s (addControlEdges p b ds s)
  | [], s => .refl _
  | d :: ds, s => (addControlEdge_same p b d s).trans (addControlEdges_same p b ds _)

theorem addSSAEdges_same (p : Prog I B) (i : I) (s : State I B V) : Same s (addSSAEdges p i s) :=
  ⟨rfl, rfl, rfl, fun _ h => h, fun _ h => h⟩

theorem ite_same {c : Prop} [Decidable c] {s a b : State I B V} (ha : Same s a) (hb : Same s b) :
    Same s (if c then a else b) := by split <;> assumption

/-- What one simulation does, given that the propagator does not stop. -/
theorem simulate_track {i : I} {s : State I B V} (h : Track p visit v₀ s) :
    (∀ s' ch, simulate p visit i s = .ok s' ch → Track p visit v₀ s') ∧
    (simulate p visit i s = .descended → ∃ st o, (visit s.val s.edges i).2.1 = some st ∧
      lastStatus s.trace i = some o ∧ st.rank < o.rank ∧ i ∉ s.dns ∧ p.block i ≠ none) ∧
    (simulate p visit i s = .failed → i ∉ s.dns ∧ (visit s.val s.edges i).2.1 = none) := by
  unfold simulate
  by_cases hd : i ∈ s.dns
  · rw [if_pos hd]
    refine ⟨fun s' ch hs => ?_, by simp, by simp⟩
    cases hs; exact h
  · rw [if_neg hd]
    generalize hv : visit s.val s.edges i = a
    obtain ⟨v, st, dest⟩ := a
    cases st with
    | none => simp [hd]
    | some st =>
      dsimp only
      cases hb : p.block i with
      | none => simp
      | some b =>
        dsimp only
        generalize hord : descends (s.status i) st = ord
        cases ord with
        | true =>
          simp only [if_true]
          refine ⟨by simp, fun _ => ?_, by simp⟩
          cases ho : s.status i with
          | none => rw [ho] at hord; simp [descends] at hord
          | some o =>
            rw [ho] at hord
            simp only [descends, decide_eq_true_eq] at hord
            exact ⟨st, o, rfl, by rw [← h.status, ho], hord, hd, by simp⟩
        | false =>
          have order : ∀ o, lastStatus s.trace i = some o → o.rank ≤ st.rank := by
            intro o ho
            rw [← h.status] at ho
            rw [ho] at hord
            simpa [descends] using hord
          have nv : lastStatus s.trace i ≠ some .varying := fun hh => hd (h.dns i (by rw [h.status, hh]))
          simp only [Bool.false_eq_true, if_false]
          have key : ∀ s' : State I B V, Same { s with
              val := v, trace := ⟨i, st, dest, s.edges⟩ :: s.trace,
              status := fun j => if j = i then some st else s.status j } s' → (st = .varying → i ∈ s'.dns) →
              Track p visit v₀ s' := by
            intro s' e hvar
            refine ⟨?_, ?_, ?_, ?_⟩
            · rw [e.trace, e.val]
              exact .cons h.replay hv h.seen order nv (by rw [hb]; simp)
            · rw [e.trace]
              intro c hc x hx
              refine e.edges x ?_
              rcases List.mem_cons.mp hc with rfl | hc
              · exact hx
              · exact h.seen c hc x hx
            · intro j
              rw [e.trace, e.status, lastStatus_cons]
              dsimp only
              rw [h.status]
            · intro j hj
              rw [e.status] at hj
              dsimp only at hj
              by_cases hji : j = i
              · rw [if_pos hji] at hj
                rw [hji]; exact hvar (Option.some.inj hj)
              · rw [if_neg hji] at hj
                exact e.dns j (h.dns j hj)
          refine ⟨fun s' ch hs => ?_, ?_, ?_⟩
          · cases st with
            | varying =>
              dsimp only at hs
              have step : ∀ s1 : State I B V, s1 = { s with
                  val := v, trace := ⟨i, .varying, dest, s.edges⟩ :: s.trace,
                  status := fun j => if j = i then some .varying else s.status j, dns := i :: s.dns } →
                  Same { s with
                    val := v, trace := ⟨i, .varying, dest, s.edges⟩ :: s.trace,
                    status := fun j => if j = i then some .varying else s.status j } s1 ∧ i ∈ s1.dns := by
                rintro s1 rfl
                exact ⟨⟨rfl, rfl, rfl, fun _ h => h, fun _ h => List.mem_cons_of_mem _ h⟩, List.mem_cons_self⟩
              obtain ⟨e1, d1⟩ := step _ rfl
              have e2 := e1.trans (ite_same (c := decide (s.status i ≠ some .varying) = true)
                (addSSAEdges_same p i _) (.refl _))
              have d2 := (ite_same (c := decide (s.status i ≠ some .varying) = true)
                (addSSAEdges_same p i _) (.refl _)).dns i d1
              split at hs
              · split at hs
                · cases hs
                · cases hs
                  have e3 := addControlEdges_same p b (p.succs b) (if decide (s.status i ≠ some .varying) = true then addSSAEdges p i { s with
                  val := v, trace := ⟨i, .varying, dest, s.edges⟩ :: s.trace,
                  status := fun j => if j = i then some .varying else s.status j, dns := i :: s.dns } else { s with
                  val := v, trace := ⟨i, .varying, dest, s.edges⟩ :: s.trace,
                  status := fun j => if j = i then some .varying else s.status j, dns := i :: s.dns })
                  exact key _ (e2.trans e3) fun _ => e3.dns i d2
              · cases hs
                exact key _ e2 fun _ => d2
            | notInteresting =>
              dsimp only at hs
              cases hs
              refine key _ ?_ (by simp)
              simp only [reduceCtorEq, and_false, if_false]
              exact ite_same (.refl _) ⟨rfl, rfl, rfl, fun _ h => h, fun _ h => List.mem_cons_of_mem _ h⟩
            | interesting =>
              dsimp only at hs
              cases hs
              refine key _ ?_ (by simp)
              refine Same.trans (ite_same (c := decide (s.status i ≠ some .interesting) = true ∧ Status.interesting = Status.interesting) (addSSAEdges_same p i _) (.refl _)) ?_
              cases dest with
              | none =>
                dsimp only
                exact ite_same (.refl _) ⟨rfl, rfl, rfl, fun _ h => h, fun _ h => List.mem_cons_of_mem _ h⟩
              | some d =>
                dsimp only
                refine Same.trans (addControlEdge_same p b d _) ?_
                exact ite_same (.refl _) ⟨rfl, rfl, rfl, fun _ h => h, fun _ h => List.mem_cons_of_mem _ h⟩
          · cases st <;> dsimp only
            · simp
            · simp
            · split
              · split <;> simp
              · simp
          · cases st <;> dsimp only
            · simp
            · simp
            · split
              · split <;> simp
              · simp

/-- The state just before the propagator was stopped by a visit. -/
def Bad (p : Prog I B) (visit : V → List (B × B) → I → V × Answer B) (v₀ : V) : Prop :=
  ∃ (s : State I B V) (i : I), Track p visit v₀ s ∧ i ∉ s.dns ∧ ((visit s.val s.edges i).2.1 = none ∨
    (p.block i ≠ none ∧ ∃ st o, (visit s.val s.edges i).2.1 = some st ∧
      lastStatus s.trace i = some o ∧ st.rank < o.rank))

theorem simulate_bad {i : I} {s : State I B V} (h : Track p visit v₀ s)
    (hs : simulate p visit i s = .descended ∨ simulate p visit i s = .failed) : Bad p visit v₀ := by
  rcases hs with hs | hs
  · obtain ⟨st, o, h1, h2, h3, h4, h5⟩ := (simulate_track h).2.1 hs
    exact ⟨s, i, h, h4, .inr ⟨h5, st, o, h1, h2, h3⟩⟩
  · obtain ⟨h1, h2⟩ := (simulate_track h).2.2 hs
    exact ⟨s, i, h, h1, .inl h2⟩

theorem all_track : ∀ (l : List I) (s : State I B V) (c : Bool), Track p visit v₀ s →
    (∀ s' ch, simulateAll p visit l s c = .ok s' ch → Track p visit v₀ s') ∧
    (simulateAll p visit l s c = .descended ∨ simulateAll p visit l s c = .failed → Bad p visit v₀)
  | [], s, c, h => ⟨fun s' ch hs => by cases hs; exact h, by simp [simulateAll]⟩
  | i :: l, s, c, h => by
    unfold simulateAll
    cases hs : simulate p visit i s with
    | ok s1 c1 => exact all_track l s1 _ ((simulate_track h).1 _ _ hs)
    | fault => simp
    | descended => exact ⟨by simp, fun _ => simulate_bad h (.inl hs)⟩
    | failed => exact ⟨by simp, fun _ => simulate_bad h (.inr hs)⟩

theorem block_track (b : B) (s : State I B V) (h : Track p visit v₀ s) :
    (∀ s' ch, simulateBlock p visit b s = .ok s' ch → Track p visit v₀ s') ∧
    (simulateBlock p visit b s = .descended ∨ simulateBlock p visit b s = .failed → Bad p visit v₀) := by
  unfold simulateBlock
  split
  · exact ⟨fun s' ch hs => by cases hs; exact h, by simp⟩
  · have h1 := all_track (p.phis b) s false h
    cases hs : simulateAll p visit (p.phis b) s false with
    | fault => simp
    | descended => exact ⟨by simp, fun _ => h1.2 (.inl hs)⟩
    | failed => exact ⟨by simp, fun _ => h1.2 (.inr hs)⟩
    | ok s1 c1 =>
      have t1 := h1.1 _ _ hs
      dsimp only
      split
      · exact ⟨fun s' ch hs => by cases hs; exact t1, by simp⟩
      · have h2 := all_track (p.insts b) s1 c1 t1
        cases hs2 : simulateAll p visit (p.insts b) s1 c1 with
        | fault => simp
        | descended => exact ⟨by simp, fun _ => h2.2 (.inl hs2)⟩
        | failed => exact ⟨by simp, fun _ => h2.2 (.inr hs2)⟩
        | ok s2 c2 =>
          have t2 : Track p visit v₀ { s2 with simulated := b :: s2.simulated } :=
            (h2.1 _ _ hs2).same ⟨rfl, rfl, rfl, fun _ h => h, fun _ h => h⟩
          dsimp only
          cases p.succs b with
          | nil => simp
          | cons d ds =>
            cases ds with
            | nil => exact ⟨fun s' ch hs => by cases hs; exact t2.same (addControlEdge_same p b d _), by simp⟩
            | cons => exact ⟨fun s' ch hs => by cases hs; exact t2, by simp⟩

theorem loop_track : ∀ (fuel : Nat) (s : State I B V) (c : Bool), Track p visit v₀ s →
    (∀ r s', loop p visit fuel s c = .done r s' → Track p visit v₀ s') ∧
    (loop p visit fuel s c = .descended ∨ (∃ r, loop p visit fuel s c = .failed r) → Bad p visit v₀)
  | 0, _, _, _ => by simp [loop]
  | fuel + 1, s, c, h => by
    unfold loop
    cases hq : s.blocks with
    | cons b rest =>
      dsimp only
      have h1 := block_track (p := p) (visit := visit) (v₀ := v₀) b { s with blocks := rest }
        (h.same ⟨rfl, rfl, rfl, fun _ h => h, fun _ h => h⟩)
      cases hs : simulateBlock p visit b { s with blocks := rest } with
      | fault => simp
      | descended => exact ⟨by simp, fun _ => h1.2 (.inl hs)⟩
      | failed => exact ⟨by simp, fun _ => h1.2 (.inr hs)⟩
      | ok s1 c1 => exact loop_track fuel s1 _ (h1.1 _ _ hs)
    | nil =>
      dsimp only
      cases hss : s.ssa with
      | nil => exact ⟨fun r s' hs => by cases hs; exact h, by simp⟩
      | cons i rest =>
        dsimp only
        have t : Track p visit v₀ { s with ssa := rest, blocks := [] } := h.same ⟨rfl, rfl, rfl, fun _ h => h, fun _ h => h⟩
        cases hs : simulate p visit i { s with ssa := rest, blocks := [] } with
        | fault => simp
        | descended => exact ⟨by simp, fun _ => simulate_bad t (.inl hs)⟩
        | failed => exact ⟨by simp, fun _ => simulate_bad t (.inr hs)⟩
        | ok s1 c1 => exact loop_track fuel s1 _ ((simulate_track t).1 _ _ hs)

theorem run_track (fuel : Nat) :
    (∀ r s, run p visit v₀ fuel = .done r s → Track p visit v₀ s) ∧
    (run p visit v₀ fuel = .descended ∨ (∃ r, run p visit v₀ fuel = .failed r) → Bad p visit v₀) := by
  refine loop_track fuel _ _ ?_
  unfold initState
  refine Track.same (s := ⟨[], [], [], [], [], fun _ => none, v₀, []⟩) ⟨.nil, by simp, ?_, by simp⟩ (addControlEdge_same p _ _ _)
  intro j; simp [lastStatus]

end Verif.Propagator
