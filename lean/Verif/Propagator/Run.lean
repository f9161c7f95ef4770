import Verif.Propagator.Inv
set_option linter.unusedSimpArgs false
set_option linter.unusedVariables false
set_option linter.unusedSectionVars false
namespace Verif.Propagator
open Verif.Cfa Verif.Cfa.Spec Spec
variable {I B V : Type} [DecidableEq I] [DecidableEq B]
variable {p : Prog I B} {visit : V → List (B × B) → I → V × Answer B}

/-- Simulating an instruction of a block does not fault. -/
theorem simulate_no_fault (wf : WellFormed p) {i : I} {b : B} (hb : p.block i = some b) (s : State I B V) :
    simulate p visit i s ≠ .fault := by
  unfold simulate
  split
  · simp
  · split
    · simp
    · next v st dest _ =>
      rw [hb]
      dsimp only
      split
      · simp
      · have hs := wf.succs b (wf.exit b i ((wf.block i b).mp hb))
        cases st with
        | varying =>
          dsimp only
          split
          · cases h : p.succs b with
            | nil => exact absurd h hs
            | cons => simp
          · simp
        | interesting => simp
        | notInteresting => simp

theorem simulate_inv (wf : WellFormed p) (cs : ChoosesSuccessors p visit) {cur : Option B} {i : I}
    {todo : List I} {s s' : State I B V} {ch} (inv : Inv p cur (i :: todo) s) {b : B} (hb : p.block i = some b)
    (hsrc : (cur = none ∧ b ∈ s.simulated) ∨ (cur = some b ∧
      ((p.terminator i = true → todo = []) ∧
       ∀ j, p.isPhi j = false → Uses p j i → p.block j = some b → j ∈ todo)))
    (h : simulate p visit i s = .ok s' ch) : Inv p cur todo s' ∧ s'.simulated = s.simulated := by
  rcases simulate_step h with ⟨hd, rfl⟩ | ⟨b', c, hstep, v, e, hv⟩
  · exact ⟨inv.skip wf hd, rfl⟩
  · have : b' = b := Option.some.inj (hstep.block.symm.trans hb)
    subst this
    refine ⟨inv.step wf hstep (fun d hd => ?_) hsrc, hstep.simulated⟩
    have := cs v e i (some c.status) d (by rw [hv, hd])
    exact ⟨this.1, this.2 _ hb⟩

theorem all_inv (wf : WellFormed p) (cs : ChoosesSuccessors p visit) {cur : Option B} {b : B} {rest : List I} :
    ∀ (l : List I) (s s' : State I B V) (ch ch'), (∀ i ∈ l, p.block i = some b) →
    ((cur = none ∧ b ∈ s.simulated) ∨ (cur = some b ∧ ∀ l₁ i l₂, l = l₁ ++ i :: l₂ →
      ((p.terminator i = true → l₂ ++ rest = []) ∧
       ∀ j, p.isPhi j = false → Uses p j i → p.block j = some b → j ∈ l₂ ++ rest))) →
    Inv p cur (l ++ rest) s → simulateAll p visit l s ch = .ok s' ch' →
    Inv p cur rest s' ∧ s'.simulated = s.simulated
  | [], s, s', ch, ch', _, _, inv, h => by cases h; exact ⟨inv, rfl⟩
  | i :: l, s, s', ch, ch', hl, hsrc, inv, h => by
    unfold simulateAll at h
    cases hs : simulate p visit i s with
    | fault => rw [hs] at h; cases h
    | descended => rw [hs] at h; cases h
    | failed => rw [hs] at h; cases h
    | ok s1 c =>
      rw [hs] at h
      obtain ⟨k1, k2⟩ := simulate_inv wf cs inv (hl i (by simp)) (hsrc.imp id fun hh => ⟨hh.1, hh.2 [] i l rfl⟩) hs
      obtain ⟨k3, k4⟩ := all_inv wf cs l s1 s' _ _ (fun j hj => hl j (by simp [hj]))
        (by
          rw [k2]
          refine hsrc.imp id fun hh => ⟨hh.1, fun l₁ j l₂ e => ?_⟩
          exact hh.2 (i :: l₁) j l₂ (by rw [e]; rfl)) k1 h
      exact ⟨k3, k4.trans k2⟩

theorem all_no_fault (wf : WellFormed p) {b : B} :
    ∀ (l : List I) (s : State I B V) (ch), (∀ i ∈ l, p.block i = some b) → simulateAll p visit l s ch ≠ .fault
  | [], s, ch, _ => by simp [simulateAll]
  | i :: l, s, ch, hl => by
    unfold simulateAll
    cases hs : simulate p visit i s with
    | fault => exact absurd hs (simulate_no_fault wf (hl i (by simp)) s)
    | descended => simp
    | failed => simp
    | ok s1 c => exact all_no_fault wf l s1 _ (fun j hj => hl j (by simp [hj]))

/-- Finishing the first simulation of a block. -/
theorem Inv.finish (wf : WellFormed p) {b : B} {s s' : State I B V} (inv : Inv p (some b) [] s)
    (h : EdgesAdded p b (fun v => p.succs b = [v]) { s with simulated := b :: s.simulated } s') :
    Inv p none [] s' := by
  obtain ⟨c1, c2, u0, c3, c4⟩ := inv.curNot b rfl
  have hsim : s'.simulated = b :: s.simulated := h.simulated
  have hedges : ∀ u v, (u, v) ∈ s'.edges ↔ (u, v) ∈ s.edges ∨ (u = b ∧ v ≠ p.pseudoExit ∧ p.succs b = [v]) := h.edges
  have hblocks : ∀ x, x ∈ s'.blocks ↔ x ∈ s.blocks ∨ ∃ u, (u, x) ∈ s'.edges ∧ (u, x) ∉ s.edges := h.blocks
  have htrace : s'.trace = s.trace := h.trace
  have hstatus : s'.status = s.status := h.status
  have hdns : s'.dns = s.dns := h.dns
  have hssa : s'.ssa = s.ssa := h.ssa
  have mono : ∀ {u v}, (u, v) ∈ s.edges → (u, v) ∈ s'.edges := fun {u v} hh => (hedges u v).mpr (.inl hh)
  have pathMono : ∀ {x q}, Path (Exec p s) p.entry x q → Path (Exec p s') p.entry x q :=
    fun hq => path_mono (fun _ _ hh => ⟨mono hh.1, hh.2⟩) hq
  refine ⟨?_, ?_, ?_, ?_, ?_, ?_, ?_, ?_, ?_, ?_, ?_, ?_, ?_, ?_, ?_, ?_, ?_, ?_⟩
  · rw [hstatus, htrace]; exact inv.st
  · rw [hstatus, hdns]; exact inv.dnsSeen
  · rw [hstatus, hdns, htrace]; exact inv.dnsFin
  · intro i hi
    rw [hssa] at hi
    obtain ⟨x, h1, h2⟩ := inv.ssaSim i hi
    exact ⟨x, h1, by rw [hsim]; simp [h2]⟩
  · intro x hx
    rcases (hblocks x).mp hx with hx | ⟨u, h1, h2⟩
    · obtain ⟨k1, u, k2⟩ := inv.blk x hx
      exact ⟨k1, u, mono k2⟩
    · rcases (hedges u x).mp h1 with h | ⟨-, h, -⟩
      · exact absurd h h2
      · exact ⟨h, u, h1⟩
  · intro u v huv
    rcases (hedges u v).mp huv with huv | ⟨rfl, h1, h2⟩
    · obtain ⟨k1, k2⟩ := inv.edge u v huv
      refine ⟨k1, k2.imp id (And.imp id fun hh => .inl ?_)⟩
      rw [hsim]
      rcases hh with hh | ⟨hh, -⟩
      · simp [hh]
      · cases hh; simp
    · exact ⟨h1, .inr ⟨by rw [h2]; simp, .inl (by rw [hsim]; simp)⟩⟩
  · intro u v huv
    by_cases hold : (u, v) ∈ s.edges
    · rcases inv.pending u v hold with k | k | k
      · exact .inl (by rw [hsim]; simp [k])
      · exact .inr (.inl ((hblocks v).mpr (.inl k)))
      · cases k; exact .inl (by rw [hsim]; simp)
    · exact .inr (.inl ((hblocks v).mpr (.inr ⟨u, huv, hold⟩)))
  · intro x hx; cases hx
  · exact mono inv.seed
  · intro x hx
    rw [hsim] at hx ⊢
    rcases List.mem_cons.mp hx with rfl | hx
    · rcases c4 with ⟨-, rfl⟩ | ⟨k1, k2⟩
      · exact ⟨_, .single _, by simp⟩
      · obtain ⟨q, hq, hin⟩ := inv.path u0 k2
        refine ⟨_, .snoc (pathMono hq) ⟨mono c3, k1⟩, fun y hy => ?_⟩
        rcases List.mem_append.mp hy with hy | hy
        · simp [hin y hy]
        · simp at hy; simp [hy]
    · obtain ⟨q, hq, hin⟩ := inv.path x hx
      exact ⟨q, pathMono hq, fun y hy => by simp [hin y hy]⟩
  · intro x i hx hi
    rw [hstatus]
    refine inv.visited x i ?_ hi
    rcases hx with hx | hx
    · rw [hsim] at hx
      rcases List.mem_cons.mp hx with rfl | hx
      · exact .inr rfl
      · exact .inl hx
    · cases hx
  · intro x hx d hd hpx
    rw [hsim] at hx
    rcases List.mem_cons.mp hx with rfl | hx
    · exact (hedges _ _).mpr (.inr ⟨rfl, hpx, hd⟩)
    · exact mono (inv.single x hx d hd hpx)
  · intro x i hx ht hv d hd hpx
    rw [hstatus] at hv
    exact mono (inv.allOut x i hx ht hv d hd hpx)
  · intro c hc x d hs hd hb hpx
    rw [htrace] at hc
    exact mono (inv.chosen c hc x d hs hd hb hpx)
  · intro u v huv
    rw [htrace]
    rcases (hedges u v).mp huv with huv | ⟨rfl, -, h2⟩
    · exact inv.only u v huv
    · exact .inr (.inl h2)
  · intro i d x hu hb hs hst
    rw [htrace] at hst
    rw [hstatus, hssa]
    have hs' : x ∈ s.simulated ∨ some b = some x := by
      rcases hs with hs | hs
      · rw [hsim] at hs
        rcases List.mem_cons.mp hs with rfl | hs
        · exact .inr rfl
        · exact .inl hs
      · cases hs
    rcases inv.stab i d x hu hb hs' hst with k | k | k | ⟨k1, k2⟩
    · exact .inl k
    · exact .inr (.inl k)
    · exact .inr (.inr (.inl k))
    · refine .inr (.inr (.inr ⟨k1, ?_⟩))
      rcases k2 with k2 | k2
      · exact .inl ((hblocks x).mpr (.inl k2))
      · by_cases hex : ∃ q, (d, q) ∈ p.args i ∧ (q, x) ∈ s'.edges
        · obtain ⟨q, hq, he⟩ := hex
          exact .inl ((hblocks x).mpr (.inr ⟨q, he, k2 q hq⟩))
        · exact .inr fun q hq he => hex ⟨q, hq, he⟩
  · intro j x hp hx hs
    rw [hstatus]
    have hs' : x ∈ s.simulated ∨ some b = some x := by
      rcases hs with hs | hs
      · rw [hsim] at hs
        rcases List.mem_cons.mp hs with rfl | hs
        · exact .inr rfl
        · exact .inl hs
      · cases hs
    rcases inv.sees j x hp hx hs' with k | k | k | ⟨c', k1, k2⟩
    · exact .inl k
    · cases k
    · exact .inr (.inr (.inl ((hblocks x).mpr (.inl k))))
    · by_cases hex : ∃ a ∈ p.args j, (a.2, x) ∈ s'.edges ∧ (a.2, x) ∉ s.edges
      · obtain ⟨a, -, h1, h2⟩ := hex
        exact .inr (.inr (.inl ((hblocks x).mpr (.inr ⟨a.2, h1, h2⟩))))
      · refine .inr (.inr (.inr ⟨c', by rw [htrace]; exact k1, fun a ha he => k2 a ha ?_⟩))
        exact Classical.byContradiction fun hn => hex ⟨a, ha, he, hn⟩
  · rw [hstatus, hdns, htrace]; exact inv.dnsPhi

/-- Taking a block already simulated off the queue: its phis are to be simulated. -/
theorem Inv.again (wf : WellFormed p) {b : B} {rest : List B} {s : State I B V} (inv : Inv p none [] s)
    (hq : s.blocks = b :: rest) (hb : b ∈ s.simulated) :
    Inv p none (p.phis b) { s with blocks := rest } := by
  refine ⟨inv.st, inv.dnsSeen, inv.dnsFin, inv.ssaSim, ?_, ?_, ?_, ?_, inv.seed, inv.path, ?_, inv.single,
    inv.allOut, inv.chosen, inv.only, ?_, ?_, inv.dnsPhi⟩
  · intro x hx; exact inv.blk x (by rw [hq]; exact List.mem_cons_of_mem _ hx)
  · intro u v huv
    obtain ⟨k1, k2⟩ := inv.edge u v huv
    refine ⟨k1, k2.imp id (And.imp id (Or.imp id fun hh => ?_))⟩
    cases hh.1
  · intro u v huv
    rcases inv.pending u v huv with k | k | k
    · exact .inl k
    · rw [hq] at k
      rcases List.mem_cons.mp k with rfl | k
      · exact .inl hb
      · exact .inr (.inl k)
    · cases k
  · intro x hx; cases hx
  · intro x i hx hi
    rcases inv.visited x i hx hi with k | k
    · cases k
    · exact .inr k
  · intro i d x hu hx hs hst
    rcases inv.stab i d x hu hx hs hst with k | k | k | ⟨k1, k2⟩
    · exact .inl k
    · exact .inr (.inl k)
    · cases k
    · rcases k2 with k2 | k2
      · rw [hq] at k2
        rcases List.mem_cons.mp k2 with rfl | k2
        · exact .inr (.inr (.inl ((wf.phis x i).mpr ⟨(wf.block i x).mp hx, k1⟩)))
        · exact .inr (.inr (.inr ⟨k1, .inl k2⟩))
      · exact .inr (.inr (.inr ⟨k1, .inr k2⟩))
  · intro i x hp hx hs
    rcases inv.sees i x hp hx hs with k | k | k | k
    · exact .inl k
    · cases k
    · rw [hq] at k
      rcases List.mem_cons.mp k with rfl | k
      · exact .inr (.inl ((wf.phis x i).mpr ⟨(wf.block i x).mp hx, hp⟩))
      · exact .inr (.inr (.inl k))
    · exact .inr (.inr (.inr k))

/-- Taking a new block off the queue: everything in it is to be simulated. -/
theorem Inv.start (wf : WellFormed p) {b : B} {rest : List B} {s : State I B V} (inv : Inv p none [] s)
    (hq : s.blocks = b :: rest) (hb : b ∉ s.simulated) :
    Inv p (some b) (p.phis b ++ p.insts b) { s with blocks := rest } := by
  obtain ⟨b1, u0, b2⟩ := inv.blk b (by rw [hq]; simp)
  obtain ⟨-, b3⟩ := inv.edge u0 b b2
  refine ⟨inv.st, inv.dnsSeen, inv.dnsFin, inv.ssaSim, ?_, ?_, ?_, ?_, inv.seed, inv.path, ?_, inv.single,
    inv.allOut, inv.chosen, inv.only, ?_, ?_, inv.dnsPhi⟩
  · intro x hx; exact inv.blk x (by rw [hq]; exact List.mem_cons_of_mem _ hx)
  · intro u v huv
    obtain ⟨k1, k2⟩ := inv.edge u v huv
    refine ⟨k1, k2.imp id (And.imp id (Or.imp id fun hh => ?_))⟩
    cases hh.1
  · intro u v huv
    rcases inv.pending u v huv with k | k | k
    · exact .inl k
    · rw [hq] at k
      rcases List.mem_cons.mp k with rfl | k
      · exact .inr (.inr rfl)
      · exact .inr (.inl k)
    · cases k
  · intro x hx
    cases hx
    refine ⟨hb, b1, u0, b2, b3.imp id (And.imp id fun hh => ?_)⟩
    rcases hh with hh | ⟨hh, -⟩
    · exact hh
    · cases hh
  · intro x i hx hi
    rcases hx with hx | hx
    · rcases inv.visited x i (.inl hx) hi with k | k
      · cases k
      · exact .inr k
    · cases hx; exact .inl (by simp [hi])
  · intro i d x hu hx hs hst
    by_cases hxb : x = b
    · rw [hxb] at hx
      exact .inr (.inr (.inl (by simp [(wf.block i b).mp hx])))
    · have hs' : x ∈ s.simulated := hs.resolve_right (by simp [Ne.symm hxb])
      rcases inv.stab i d x hu hx (.inl hs') hst with k | k | k | ⟨k1, k2⟩
      · exact .inl k
      · exact .inr (.inl k)
      · cases k
      · rcases k2 with k2 | k2
        · rw [hq] at k2
          rcases List.mem_cons.mp k2 with k2 | k2
          · exact absurd k2 hxb
          · exact .inr (.inr (.inr ⟨k1, .inl k2⟩))
        · exact .inr (.inr (.inr ⟨k1, .inr k2⟩))
  · intro i x hp hx hs
    by_cases hxb : x = b
    · rw [hxb] at hx
      exact .inr (.inl (by simp [(wf.block i b).mp hx]))
    · have hs' : x ∈ s.simulated := hs.resolve_right (by simp [Ne.symm hxb])
      rcases inv.sees i x hp hx (.inl hs') with k | k | k | k
      · exact .inl k
      · cases k
      · rw [hq] at k
        exact .inr (.inr (.inl ((List.mem_cons.mp k).resolve_left hxb)))
      · exact .inr (.inr (.inr k))

theorem block_inv (wf : WellFormed p) (cs : ChoosesSuccessors p visit) {b : B} {rest : List B}
    {s s' : State I B V} {ch} (inv : Inv p none [] s) (hq : s.blocks = b :: rest)
    (h : simulateBlock p visit b { s with blocks := rest } = .ok s' ch) : Inv p none [] s' := by
  have hpx := (inv.blk b (by rw [hq]; simp)).1
  have hphi : ∀ i ∈ p.phis b, p.block i = some b := fun i hi => (wf.block i b).mpr ((wf.phis b i).mp hi).1
  unfold simulateBlock at h
  rw [if_neg hpx] at h
  cases h1 : simulateAll p visit (p.phis b) { s with blocks := rest } false with
  | fault => rw [h1] at h; cases h
  | descended => rw [h1] at h; cases h
  | failed => rw [h1] at h; cases h
  | ok s1 c1 =>
    rw [h1] at h
    dsimp only at h
    by_cases hb : b ∈ s.simulated
    · obtain ⟨k1, k2⟩ := all_inv wf cs (rest := []) _ { s with blocks := rest } _ _ _ hphi (.inl ⟨rfl, hb⟩)
        (by rw [List.append_nil]; exact inv.again wf hq hb) h1
      rw [if_pos (by rw [k2]; exact hb)] at h
      cases h
      exact k1
    · obtain ⟨k1, k2⟩ := all_inv wf cs (rest := p.insts b) _ _ _ _ _ hphi
        (.inr ⟨rfl, fun l₁ i l₂ e => ⟨fun ht => by
            have hi := (wf.phis b i).mp (by rw [e]; simp)
            rw [wf.termPhi i ht] at hi
            exact absurd hi.2 (by simp),
          fun j _ _ hj => List.mem_append_right _ ((wf.block j b).mp hj)⟩⟩)
        (inv.start wf hq hb) h1
      rw [if_neg (by rw [k2]; exact hb)] at h
      cases h2 : simulateAll p visit (p.insts b) s1 c1 with
      | fault => rw [h2] at h; cases h
      | descended => rw [h2] at h; cases h
      | failed => rw [h2] at h; cases h
      | ok s2 c2 =>
        rw [h2] at h
        dsimp only at h
        obtain ⟨k3, k4⟩ := all_inv wf cs (rest := []) _ _ _ _ _
          (fun i hi => (wf.block i b).mpr hi)
          (.inr ⟨rfl, fun l₁ i l₂ e => ⟨fun ht => by rw [wf.last b l₁ i l₂ ht e]; rfl,
            fun j hp hu hj => by
              rw [List.append_nil]
              exact wf.order b l₁ i l₂ j e ((wf.block j b).mp hj) hp hu⟩⟩)
          (by rw [List.append_nil]; exact k1) h2
        refine k3.finish wf ?_
        cases hs : p.succs b with
        | nil => rw [hs] at h; cases h
        | cons d ds =>
          rw [hs] at h
          cases ds with
          | nil =>
            dsimp only at h
            cases h
            have := addControlEdge_added p b d { s2 with simulated := b :: s2.simulated }
            have e : (fun v => [d] = [v]) = (fun v : B => v = d) := by funext v; simp [eq_comm]
            rw [e]; exact this
          | cons d' ds =>
            dsimp only at h
            cases h
            exact EdgesAdded.none p b (by simp) _

theorem block_no_fault (wf : WellFormed p) {b : B} (s : State I B V) (hpx : b ≠ p.pseudoExit) :
    simulateBlock p visit b s ≠ .fault := by
  have hphi : ∀ i ∈ p.phis b, p.block i = some b := fun i hi => (wf.block i b).mpr ((wf.phis b i).mp hi).1
  unfold simulateBlock
  rw [if_neg hpx]
  cases h1 : simulateAll p visit (p.phis b) s false with
  | fault => exact absurd h1 (all_no_fault wf _ _ _ hphi)
  | descended => simp
  | failed => simp
  | ok s1 c1 =>
    dsimp only
    split
    · simp
    · cases h2 : simulateAll p visit (p.insts b) s1 c1 with
      | fault => exact absurd h2 (all_no_fault wf _ _ _ (fun i hi => (wf.block i b).mpr hi))
      | descended => simp
      | failed => simp
      | ok s2 c2 =>
        dsimp only
        have hs := wf.succs b hpx
        cases h : p.succs b with
        | nil => exact absurd h hs
        | cons d ds => cases ds <;> simp

/-- Taking an instruction off the queue. -/
theorem Inv.popSsa {i : I} {rest : List I} {s : State I B V} (inv : Inv p none [] s)
    (hq : s.ssa = i :: rest) : Inv p none [i] { s with ssa := rest } := by
  refine ⟨inv.st, inv.dnsSeen, inv.dnsFin, ?_, inv.blk, ?_, inv.pending, ?_, inv.seed, inv.path, ?_, inv.single,
    inv.allOut, inv.chosen, inv.only, ?_, ?_, inv.dnsPhi⟩
  · intro x hx; exact inv.ssaSim x (by rw [hq]; exact List.mem_cons_of_mem _ hx)
  · intro u v huv
    obtain ⟨k1, k2⟩ := inv.edge u v huv
    refine ⟨k1, k2.imp id (And.imp id (Or.imp id fun hh => ?_))⟩
    cases hh.1
  · intro x hx; cases hx
  · intro x j hx hj
    rcases inv.visited x j hx hj with k | k
    · cases k
    · exact .inr k
  · intro j d x hu hx hs hst
    rcases inv.stab j d x hu hx hs hst with k | k | k | k
    · exact .inl k
    · rw [hq] at k
      rcases List.mem_cons.mp k with rfl | k
      · exact .inr (.inr (.inl (by simp)))
      · exact .inr (.inl k)
    · cases k
    · exact .inr (.inr (.inr k))
  · intro j x hp hx hs
    rcases inv.sees j x hp hx hs with k | k | k
    · exact .inl k
    · cases k
    · exact .inr (.inr k)

theorem init_inv (wf : WellFormed p) (v : V) : Inv p none [] (initState p v : State I B V) := by
  have h : initState p v = ⟨[], [p.entry], [], [], [(p.pseudoEntry, p.entry)], fun _ => none, v, []⟩ := by
    unfold initState addControlEdge
    rw [if_neg wf.entry, if_neg (by simp)]
    rfl
  rw [h]
  refine ⟨fun j => rfl, by simp, by simp, by simp, ?_, ?_, ?_, by simp, by simp, by simp, by simp, by simp,
    by simp, by simp, ?_, ?_, by simp, by simp⟩
  · intro b hb
    simp at hb; subst hb
    exact ⟨wf.entry, p.pseudoEntry, by simp⟩
  · intro u v huv
    simp at huv
    exact ⟨by rw [huv.2]; exact wf.entry, .inl huv⟩
  · intro u v huv
    simp at huv
    exact .inr (.inl (by simp [huv.2]))
  · intro u v huv
    simp at huv
    exact .inl huv
  · intro i d b _ _ _ hst; exact hst.elim

theorem loop_inv (wf : WellFormed p) (cs : ChoosesSuccessors p visit) : ∀ (fuel : Nat) (s : State I B V) (ch : Bool),
    Inv p none [] s → loop p visit fuel s ch ≠ .fault ∧
    ∀ r s', loop p visit fuel s ch = .done r s' → Inv p none [] s' ∧ s'.blocks = [] ∧ s'.ssa = []
  | 0, s, ch, _ => by simp [loop]
  | fuel + 1, s, ch, inv => by
    unfold loop
    cases hq : s.blocks with
    | cons b rest =>
      dsimp only
      have hpx := (inv.blk b (by rw [hq]; simp)).1
      cases h : simulateBlock p visit b { s with blocks := rest } with
      | fault => exact absurd h (block_no_fault wf _ hpx)
      | descended => simp
      | failed => simp
      | ok s1 c =>
        dsimp only
        exact loop_inv wf cs fuel s1 _ (block_inv wf cs inv hq h)
    | nil =>
      dsimp only
      cases hs : s.ssa with
      | nil =>
        dsimp only
        refine ⟨by simp, fun r s' h => ?_⟩
        cases h
        exact ⟨inv, hq, hs⟩
      | cons i rest =>
        dsimp only
        obtain ⟨b, hb, hsim⟩ := inv.ssaSim i (by rw [hs]; simp)
        have he : ({ s with ssa := rest, blocks := [] } : State I B V) = { s with ssa := rest } := by rw [← hq]
        rw [he]
        cases h : simulate p visit i { s with ssa := rest } with
        | fault => exact absurd h (simulate_no_fault wf hb _)
        | descended => simp
        | failed => simp
        | ok s1 c =>
          dsimp only
          exact loop_inv wf cs fuel s1 _
            (simulate_inv wf cs (inv.popSsa hs) hb (.inl ⟨rfl, hsim⟩) h).1

theorem Inv.settled {s : State I B V} (inv : Inv p none [] s) (hb : s.blocks = []) (hs : s.ssa = []) :
    Settled p s := by
  have pend : ∀ u v, (u, v) ∈ s.edges → v ∈ s.simulated := by
    intro u v huv
    rcases inv.pending u v huv with k | k | k
    · exact k
    · rw [hb] at k; cases k
    · cases k
  refine ⟨?_, ?_, inv.single, ?_, inv.chosen, ?_, ?_, ?_⟩
  · intro b
    constructor
    · intro h
      obtain ⟨q, hq, -⟩ := inv.path b h
      exact path_reach_end (path_mono (fun _ _ hh => hh.1) hq)
    · intro h
      cases h with
      | refl => exact pend _ _ inv.seed
      | tail _ he => exact pend _ _ he
  · intro b hb i hi
    rcases inv.visited b i (.inl hb) hi with k | k
    · cases k
    · rw [inv.st, lastStatus] at k
      cases hf : s.trace.find? (fun c => decide (c.inst = i)) with
      | none => rw [hf] at k; exact absurd rfl k
      | some c => exact ⟨c, List.mem_of_find?_eq_some hf, by simpa using List.find?_some hf⟩
  · intro b i hbi ht hv
    exact inv.allOut b i hbi ht (by rw [inv.st]; exact hv)
  · intro u v huv
    obtain ⟨-, h1⟩ := inv.edge u v huv
    rcases inv.only u v huv with h | h
    · exact .inl h
    · rcases h1 with h1 | ⟨-, h1 | h1⟩
      · exact .inl h1
      · exact .inr ⟨h1, h⟩
      · cases h1.1
  · intro i d b hbi hsim hu later c earlier ht hc hch
    by_cases hst : Stale i d s.trace
    · rcases inv.stab i d b hu hbi (.inl hsim) hst with k | k | k | ⟨k1, k2⟩
      · exact .inr (.inl (by rw [← inv.st]; exact k))
      · rw [hs] at k; cases k
      · cases k
      · rcases k2 with k2 | k2
        · rw [hb] at k2; cases k2
        · exact .inr (.inr ⟨k1, k2⟩)
    · exact .inl (not_stale later hst c earlier ht hc hch)
  · intro i b hp hbi hsim
    rcases inv.sees i b hp hbi (.inl hsim) with k | k | k | k
    · exact .inl (by rw [← inv.st]; exact k)
    · cases k
    · rw [hb] at k; cases k
    · exact .inr k

end Verif.Propagator
