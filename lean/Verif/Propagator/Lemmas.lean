import Verif.Propagator.Spec
import Verif.Cfa.Blocks
set_option linter.unusedSimpArgs false
set_option linter.unusedVariables false
set_option linter.unusedSectionVars false
namespace Verif.Propagator
open Verif.Cfa Verif.Cfa.Spec Spec
variable {I B V : Type} [DecidableEq I] [DecidableEq B]

/-- `s'` is `s` with edges from `b` to the members of `N` made executable. -/
structure EdgesAdded (p : Prog I B) (b : B) (N : B → Prop) (s s' : State I B V) : Prop where
  edges : ∀ u v, (u, v) ∈ s'.edges ↔ (u, v) ∈ s.edges ∨ (u = b ∧ v ≠ p.pseudoExit ∧ N v)
  blocks : ∀ x, x ∈ s'.blocks ↔ x ∈ s.blocks ∨ ∃ u, (u, x) ∈ s'.edges ∧ (u, x) ∉ s.edges
  ssa : s'.ssa = s.ssa
  simulated : s'.simulated = s.simulated
  dns : s'.dns = s.dns
  status : s'.status = s.status
  trace : s'.trace = s.trace

theorem EdgesAdded.none (p : Prog I B) (b : B) {N : B → Prop} (hN : ∀ v, ¬ N v) (s : State I B V) :
    EdgesAdded p b N s s :=
  ⟨fun u v => by simp [hN], fun x => by simp, rfl, rfl, rfl, rfl, rfl⟩

theorem addControlEdge_added (p : Prog I B) (b d : B) (s : State I B V) :
    EdgesAdded p b (fun v => v = d) s (addControlEdge p b d s) := by
  unfold addControlEdge
  split
  · next h =>
    refine ⟨fun u v => ?_, fun x => by simp, rfl, rfl, rfl, rfl, rfl⟩
    constructor
    · exact .inl
    · rintro (h1 | ⟨-, h2, h3⟩)
      · exact h1
      · exact absurd (h3.trans h) h2
  · next h =>
    split
    · next he =>
      refine ⟨fun u v => ?_, fun x => by simp, rfl, rfl, rfl, rfl, rfl⟩
      constructor
      · exact .inl
      · rintro (h1 | ⟨rfl, h2, rfl⟩)
        · exact h1
        · exact he
    · next he =>
      refine ⟨fun u v => ?_, fun x => ?_, rfl, rfl, rfl, rfl, rfl⟩
      · simp only [List.mem_cons, Prod.mk.injEq]
        constructor
        · rintro (⟨rfl, rfl⟩ | h1)
          · exact .inr ⟨rfl, h, rfl⟩
          · exact .inl h1
        · rintro (h1 | ⟨rfl, -, rfl⟩)
          · exact .inr h1
          · exact .inl ⟨rfl, rfl⟩
      · simp only [List.mem_append, List.mem_singleton]
        simp only [List.mem_cons, Prod.mk.injEq]
        constructor
        · rintro (h1 | rfl)
          · exact .inl h1
          · exact .inr ⟨b, .inl ⟨rfl, rfl⟩, he⟩
        · rintro (h1 | ⟨u, ⟨rfl, rfl⟩ | h2, h3⟩)
          · exact .inl h1
          · exact .inr rfl
          · exact absurd h2 h3

theorem addControlEdges_added (p : Prog I B) (b : B) : ∀ (ds : List B) (s : State I B V),
    EdgesAdded p b (fun v => v ∈ ds) s (addControlEdges p b ds s)
  | [], s => EdgesAdded.none p b (by simp) s
  | d :: ds, s => by
    have h1 := addControlEdge_added p b d s
    have h2 := addControlEdges_added p b ds (addControlEdge p b d s)
    unfold addControlEdges
    refine ⟨fun u v => ?_, fun x => ?_, h2.ssa.trans h1.ssa, h2.simulated.trans h1.simulated,
      h2.dns.trans h1.dns, h2.status.trans h1.status, h2.trace.trans h1.trace⟩
    · rw [h2.edges, h1.edges, List.mem_cons]
      constructor
      · rintro ((h | ⟨a, b, c⟩) | ⟨a, b, c⟩)
        · exact .inl h
        · exact .inr ⟨a, b, .inl c⟩
        · exact .inr ⟨a, b, .inr c⟩
      · rintro (h | ⟨a, b, c | c⟩)
        · exact .inl (.inl h)
        · exact .inl (.inr ⟨a, b, c⟩)
        · exact .inr ⟨a, b, c⟩
    · rw [h2.blocks, h1.blocks]
      constructor
      · rintro ((h | ⟨u, a, b⟩) | ⟨u, a, b⟩)
        · exact .inl h
        · exact .inr ⟨u, (h2.edges u x).mpr (.inl a), b⟩
        · exact .inr ⟨u, a, fun hh => b ((h1.edges u x).mpr (.inl hh))⟩
      · rintro (h | ⟨u, a, b'⟩)
        · exact .inl (.inl h)
        · by_cases hm : (u, x) ∈ (addControlEdge p b d s).edges
          · exact .inl (.inr ⟨u, hm, b'⟩)
          · exact .inr ⟨u, a, hm⟩

/-- What one visit of instruction `i` in block `b` does to the state. -/
structure Step (p : Prog I B) (i : I) (b : B) (c : Call I B) (s s' : State I B V) : Prop where
  inst : c.inst = i
  fresh : i ∉ s.dns
  block : p.block i = some b
  trace : s'.trace = c :: s.trace
  status : ∀ j, s'.status j = if j = i then some c.status else s.status j
  simulated : s'.simulated = s.simulated
  dns : ∀ j, j ∈ s'.dns → j ∈ s.dns ∨
    (j = i ∧ (c.status = .varying ∨ ∀ d, Uses p i d → d ∈ s.dns))
  dnsMono : ∀ j ∈ s.dns, j ∈ s'.dns
  ssaOld : ∀ u ∈ s.ssa, u ∈ s'.ssa
  ssaNew : ∀ u ∈ s'.ssa, u ∈ s.ssa ∨ ∃ b, p.block u = some b ∧ b ∈ s.simulated
  ssaUsers : c.status ≠ .notInteresting → s.status i ≠ some c.status → ∀ u ∈ p.users i, ∀ b,
    p.block u = some b → b ∈ s.simulated → u ∉ s.dns → (u ≠ i ∨ c.status ≠ .varying) → u ∈ s'.ssa
  edges : ∀ u v, (u, v) ∈ s'.edges ↔ (u, v) ∈ s.edges ∨ (u = b ∧ v ≠ p.pseudoExit ∧
    ((c.status = .varying ∧ p.terminator i = true ∧ v ∈ p.succs b) ∨
     (c.status = .interesting ∧ c.dest = some v)))
  blocks : ∀ x, x ∈ s'.blocks ↔ x ∈ s.blocks ∨ ∃ u, (u, x) ∈ s'.edges ∧ (u, x) ∉ s.edges
  order : ∀ o, s.status i = some o → o.rank ≤ c.status.rank
  seen : c.seen = s.edges
  dnsPhi : i ∈ s'.dns → c.status = .varying ∨ (p.isPhi i = true → ∀ a ∈ p.args i, (a.2, b) ∈ s'.edges)

theorem mem_ssaUsers {p : Prog I B} {s : State I B V} {i u : I} :
    u ∈ ssaUsers p s i ↔ u ∈ p.users i ∧ ∃ b, p.block u = some b ∧ b ∈ s.simulated ∧ u ∉ s.dns := by
  unfold ssaUsers
  rw [List.mem_filter]
  refine and_congr_right fun _ => ?_
  cases p.block u <;> simp

theorem noOperands {p : Prog I B} {s : State I B V} {i : I} {b : B}
    (h : hasOperandsToSimulate p s i b = false) : ∀ d, Uses p i d → d ∈ s.dns := by
  intro d hd
  unfold hasOperandsToSimulate at h
  unfold Uses at hd
  split at h
  · next hp =>
    rw [if_pos hp] at hd
    obtain ⟨q, hq⟩ := hd
    rw [List.any_eq_false] at h
    have := h _ hq
    simp at this
    exact this.2
  · next hp =>
    rw [if_neg hp] at hd
    rw [List.any_eq_false] at h
    have := h _ hd
    simpa using this

theorem noOperands_phi {p : Prog I B} {s : State I B V} {i : I} {b : B}
    (h : hasOperandsToSimulate p s i b = false) : p.isPhi i = true → ∀ a ∈ p.args i, (a.2, b) ∈ s.edges := by
  intro hp a ha
  unfold hasOperandsToSimulate at h
  rw [if_pos hp, List.any_eq_false] at h
  have := h _ ha
  simp at this
  exact this.1

theorem simulate_step {p : Prog I B} {visit : V → List (B × B) → I → V × Answer B} {i : I}
    {s s' : State I B V} {ch} (h : simulate p visit i s = .ok s' ch) :
    (i ∈ s.dns ∧ s' = s) ∨ ∃ b c, Step p i b c s s' ∧
      ∃ v e, (visit v e i).2 = (some c.status, c.dest) := by
  unfold simulate at h
  by_cases hd : i ∈ s.dns
  · rw [if_pos hd] at h
    cases h
    exact .inl ⟨hd, rfl⟩
  · rw [if_neg hd] at h
    refine .inr ?_
    generalize hv : visit s.val s.edges i = a at h
    obtain ⟨v, st, dest⟩ := a
    cases st with
    | none => cases h
    | some st =>
      dsimp only at h
      cases hb : p.block i with
      | none => rw [hb] at h; cases h
      | some b =>
        rw [hb] at h
        dsimp only at h
        generalize hord : descends (s.status i) st = ord at h
        cases ord with
        | true => simp at h
        | false =>
          have order : ∀ o, s.status i = some o → o.rank ≤ st.rank := by
            intro o ho
            rw [ho] at hord
            simpa [descends] using hord
          simp only [Bool.false_eq_true, if_false] at h
          refine ⟨b, ⟨i, st, dest, s.edges⟩, ?_, s.val, s.edges, by rw [hv]⟩
          cases st with
          | varying =>
            dsimp only at h
            let s1 : State I B V := { s with
              val := v, trace := ⟨i, .varying, dest, s.edges⟩ :: s.trace,
              status := fun j => if j = i then some .varying else s.status j, dns := i :: s.dns }
            let s2 : State I B V := if decide (s.status i ≠ some .varying) = true then addSSAEdges p i s1 else s1
            have e2 : s2.trace = s1.trace ∧ s2.status = s1.status ∧ s2.simulated = s.simulated ∧
                s2.dns = s1.dns ∧ s2.edges = s.edges ∧ s2.blocks = s.blocks ∧
                (∀ u, u ∈ s2.ssa ↔ u ∈ s.ssa ∨ (s.status i ≠ some .varying ∧ u ∈ ssaUsers p s1 i)) := by
              by_cases hc : s.status i = some .varying
              · simp [s2, s1, hc]
              · simp [s2, s1, hc, addSSAEdges, List.mem_append]
            obtain ⟨t1, t2, t3, t4, t5, t6, t7⟩ := e2
            have key : ∀ s', EdgesAdded p b (fun w => p.terminator i = true ∧ w ∈ p.succs b) s2 s' →
                Step p i b ⟨i, .varying, dest, s.edges⟩ s s' := by
              intro s' ha
              refine ⟨rfl, hd, hb, ?_, ?_, ?_, ?_, ?_, ?_, ?_, ?_, ?_, ?_, order, rfl, fun _ => .inl rfl⟩
              · rw [ha.trace, t1]
              · intro j; rw [ha.status, t2]
              · rw [ha.simulated, t3]
              · intro j hj
                rw [ha.dns, t4] at hj
                rcases List.mem_cons.mp hj with rfl | hj
                · exact .inr ⟨rfl, .inl rfl⟩
                · exact .inl hj
              · intro j hj
                rw [ha.dns, t4]; exact List.mem_cons_of_mem _ hj
              · intro u hu
                rw [ha.ssa, t7]; exact .inl hu
              · intro u hu
                rw [ha.ssa, t7] at hu
                rcases hu with hu | ⟨-, hu⟩
                · exact .inl hu
                · obtain ⟨-, b', h1, h2, -⟩ := mem_ssaUsers.mp hu
                  exact .inr ⟨b', h1, h2⟩
              · intro _ hch u hu b' hub hsim hdn hne
                rw [ha.ssa, t7]
                refine .inr ⟨hch, mem_ssaUsers.mpr ⟨hu, b', hub, hsim, ?_⟩⟩
                have hui : u ≠ i := hne.resolve_right (by simp)
                simp [s1, hui, hdn]
              · intro u w
                rw [ha.edges, t5]
                simp
              · intro x
                rw [ha.blocks, t5, t6]
            by_cases ht : p.terminator i = true
            · rw [if_pos ht] at h
              cases hs : p.succs b with
              | nil => rw [hs] at h; cases h
              | cons d ds =>
                rw [hs] at h
                dsimp only at h
                cases h
                refine key _ ?_
                have := addControlEdges_added p b (d :: ds) s2
                rw [← hs] at this ⊢
                simp only [ht, true_and]
                exact this
            · rw [if_neg ht] at h
              cases h
              refine key _ (EdgesAdded.none p b (fun w hw => ht hw.1) _)
          | notInteresting =>
            dsimp only at h
            let s1 : State I B V := { s with
              val := v, trace := ⟨i, .notInteresting, dest, s.edges⟩ :: s.trace,
              status := fun j => if j = i then some .notInteresting else s.status j }
            have h' : Res.ok (if hasOperandsToSimulate p s1 i b = true then s1
                else { s1 with dns := i :: s1.dns }) (decide (Status.notInteresting = .interesting)) = Res.ok s' ch := by
              rw [← h]; simp [s1]
            cases h'
            by_cases ho : hasOperandsToSimulate p s1 i b = true
            · rw [if_pos ho]
              refine ⟨rfl, hd, hb, rfl, fun j => rfl, rfl, fun j hj => .inl hj, fun j hj => hj,
                fun u hu => hu, fun u hu => .inl hu, fun hn => absurd rfl hn, ?_, ?_, order, rfl,
                fun hh => absurd hh hd⟩
              · intro u w; simp [s1]
              · intro x; simp [s1]
            · rw [if_neg ho]
              refine ⟨rfl, hd, hb, rfl, fun j => rfl, rfl, fun j hj => ?_, fun j hj => List.mem_cons_of_mem _ hj,
                fun u hu => hu, fun u hu => .inl hu, fun hn => absurd rfl hn, ?_, ?_, order, rfl,
                fun _ => .inr (noOperands_phi (s := s1) (Bool.eq_false_iff.mpr ho))⟩
              · rcases List.mem_cons.mp hj with rfl | hj
                · exact .inr ⟨rfl, .inr (fun d hd => noOperands (Bool.eq_false_iff.mpr ho) d hd)⟩
                · exact .inl hj
              · intro u w; simp [s1]
              · intro x; simp [s1]
          | interesting =>
            dsimp only at h
            let s1 : State I B V := { s with
              val := v, trace := ⟨i, .interesting, dest, s.edges⟩ :: s.trace,
              status := fun j => if j = i then some .interesting else s.status j }
            let s2 : State I B V := if decide (s.status i ≠ some .interesting) = true ∧ Status.interesting = .interesting
              then addSSAEdges p i s1 else s1
            let s3 : State I B V := match dest with
              | some d => addControlEdge p b d s2
              | none => s2
            have e2 : s2.trace = s1.trace ∧ s2.status = s1.status ∧ s2.simulated = s.simulated ∧
                s2.dns = s.dns ∧ s2.edges = s.edges ∧ s2.blocks = s.blocks ∧
                (∀ u, u ∈ s2.ssa ↔ u ∈ s.ssa ∨ (s.status i ≠ some .interesting ∧ u ∈ ssaUsers p s1 i)) := by
              by_cases hc : s.status i = some .interesting
              · simp [s2, s1, hc]
              · simp [s2, s1, hc, addSSAEdges, List.mem_append]
            obtain ⟨t1, t2, t3, t4, t5, t6, t7⟩ := e2
            have ha : EdgesAdded p b (fun w => dest = some w) s2 s3 := by
              cases dest with
              | none => exact EdgesAdded.none p b (by simp) _
              | some d =>
                have := addControlEdge_added p b d s2
                have e : (fun w => some d = some w) = (fun w => w = d) := by
                  funext w; simp [eq_comm]
                rw [e]; exact this
            have key : ∀ s', s'.trace = s3.trace → s'.status = s3.status → s'.simulated = s3.simulated →
                s'.edges = s3.edges → s'.blocks = s3.blocks → s'.ssa = s3.ssa →
                (∀ j, j ∈ s'.dns → j ∈ s3.dns ∨ (j = i ∧ ∀ d, Uses p i d → d ∈ s3.dns)) →
                (∀ j ∈ s3.dns, j ∈ s'.dns) →
                (i ∈ s'.dns → i ∈ s3.dns ∨ (p.isPhi i = true → ∀ a ∈ p.args i, (a.2, b) ∈ s3.edges)) → Step p i b ⟨i, .interesting, dest, s.edges⟩ s s' := by
              intro s' q1 q2 q3 q4 q5 q6 q7 q8 q9
              have d3 : s3.dns = s.dns := ha.dns.trans t4
              refine ⟨rfl, hd, hb, ?_, ?_, ?_, ?_, ?_, ?_, ?_, ?_, ?_, ?_, order, rfl, fun hh => .inr ?_⟩
              rotate_right
              · rw [q4]
                exact (q9 hh).resolve_left (by rw [d3]; exact hd)
              · rw [q1, ha.trace, t1]
              · intro j; rw [q2, ha.status, t2]
              · rw [q3, ha.simulated, t3]
              · intro j hj
                have := q7 j hj
                rw [d3] at this
                rcases this with h | ⟨h1, h2⟩
                · exact .inl h
                · exact .inr ⟨h1, .inr h2⟩
              · intro j hj
                rw [← d3] at hj; exact q8 j hj
              · intro u hu
                rw [q6, ha.ssa, t7]; exact .inl hu
              · intro u hu
                rw [q6, ha.ssa, t7] at hu
                rcases hu with hu | ⟨-, hu⟩
                · exact .inl hu
                · obtain ⟨-, b', h1, h2, -⟩ := mem_ssaUsers.mp hu
                  exact .inr ⟨b', h1, h2⟩
              · intro _ hch u hu b' hub hsim hdn hne
                rw [q6, ha.ssa, t7]
                exact .inr ⟨hch, mem_ssaUsers.mpr ⟨hu, b', hub, hsim, hdn⟩⟩
              · intro u w
                rw [q4, ha.edges, t5]
                simp
              · intro x
                rw [q5, q4, ha.blocks, t5, t6]
            have h' : Res.ok (if hasOperandsToSimulate p s3 i b = true then s3
                else { s3 with dns := i :: s3.dns }) (decide (Status.interesting = .interesting)) = Res.ok s' ch := by
              rw [← h]
              cases dest <;> rfl
            rw [← (Res.ok.inj h').1]
            by_cases ho : hasOperandsToSimulate p s3 i b = true
            · rw [if_pos ho]
              exact key _ rfl rfl rfl rfl rfl rfl (fun j hj => .inl hj) (fun j hj => hj) .inl
            · rw [if_neg ho]
              refine key _ rfl rfl rfl rfl rfl rfl (fun j hj => ?_) (fun j hj => List.mem_cons_of_mem _ hj)
                (fun _ => .inr (noOperands_phi (Bool.eq_false_iff.mpr ho)))
              rcases List.mem_cons.mp hj with rfl | hj
              · exact .inr ⟨rfl, fun d hd => noOperands (Bool.eq_false_iff.mpr ho) d hd⟩
              · exact .inl hj

end Verif.Propagator
