import Verif.Propagator.Lemmas
set_option linter.unusedSimpArgs false
set_option linter.unusedVariables false
set_option linter.unusedSectionVars false
namespace Verif.Propagator
open Verif.Cfa Verif.Cfa.Spec Spec
variable {I B V : Type} [DecidableEq I] [DecidableEq B]

/-- `d` changed since the last call for `i`. -/
def Stale (i d : I) : List (Call I B) → Prop
  | [] => False
  | c :: t => (c.inst = d ∧ Changes t c) ∨ (c.inst ≠ i ∧ Stale i d t)

theorem not_stale {i d : I} : ∀ (later : List (Call I B)) {t : List (Call I B)}, ¬ Stale i d t → ∀ c earlier,
    t = later ++ c :: earlier → c.inst = d → Changes earlier c → ∃ c' ∈ later, c'.inst = i
  | [], t, hn, c, earlier, ht, hc, hch => by
    subst ht
    exact absurd (Or.inl ⟨hc, hch⟩) hn
  | x :: later, t, hn, c, earlier, ht, hc, hch => by
    subst ht
    by_cases hx : x.inst = i
    · exact ⟨x, by simp, hx⟩
    · have : ¬ Stale i d (later ++ c :: earlier) := fun h => hn (.inr ⟨hx, h⟩)
      obtain ⟨c', h1, h2⟩ := not_stale later this c earlier rfl hc hch
      exact ⟨c', by simp [h1], h2⟩

theorem lastStatus_cons (c : Call I B) (t : List (Call I B)) (j : I) :
    lastStatus (c :: t) j = if j = c.inst then some c.status else lastStatus t j := by
  unfold lastStatus
  by_cases h : c.inst = j
  · simp [List.find?_cons, h]
  · rw [if_neg (Ne.symm h), List.find?_cons, decide_eq_false h]

/-- Executable edges of the graph. -/
def Exec (p : Prog I B) (s : State I B V) (u v : B) : Prop := (u, v) ∈ s.edges ∧ v ∈ p.succs u

theorem path_mono {E E' : B → B → Prop} (h : ∀ u v, E u v → E' u v) {a b q} (hp : Path E a b q) :
    Path E' a b q := by
  induction hp with
  | single => exact .single _
  | snoc _ he ih => exact .snoc ih (h _ _ he)

/-- The invariant while block `cur` is simulated for the first time (if any); the instructions
`todo` will be simulated before anything else. -/
structure Inv (p : Prog I B) (cur : Option B) (todo : List I) (s : State I B V) : Prop where
  st : ∀ j, s.status j = lastStatus s.trace j
  dnsSeen : ∀ i ∈ s.dns, s.status i ≠ none
  dnsFin : ∀ i ∈ s.dns, s.status i = some .varying ∨ ∀ d, Uses p i d → d ∈ s.dns ∧ ¬ Stale i d s.trace
  ssaSim : ∀ i ∈ s.ssa, ∃ b, p.block i = some b ∧ b ∈ s.simulated
  blk : ∀ b ∈ s.blocks, b ≠ p.pseudoExit ∧ ∃ u, (u, b) ∈ s.edges
  edge : ∀ u v, (u, v) ∈ s.edges → v ≠ p.pseudoExit ∧ ((u = p.pseudoEntry ∧ v = p.entry) ∨
    (v ∈ p.succs u ∧ (u ∈ s.simulated ∨ (cur = some u ∧ todo = []))))
  pending : ∀ u v, (u, v) ∈ s.edges → v ∈ s.simulated ∨ v ∈ s.blocks ∨ cur = some v
  curNot : ∀ b, cur = some b → b ∉ s.simulated ∧ b ≠ p.pseudoExit ∧ ∃ u, (u, b) ∈ s.edges ∧
    ((u = p.pseudoEntry ∧ b = p.entry) ∨ (b ∈ p.succs u ∧ u ∈ s.simulated))
  seed : (p.pseudoEntry, p.entry) ∈ s.edges
  path : ∀ b ∈ s.simulated, ∃ q, Path (Exec p s) p.entry b q ∧ ∀ x ∈ q, x ∈ s.simulated
  visited : ∀ b i, b ∈ s.simulated ∨ cur = some b → i ∈ p.insts b → i ∈ todo ∨ s.status i ≠ none
  single : ∀ b ∈ s.simulated, ∀ d, p.succs b = [d] → d ≠ p.pseudoExit → (b, d) ∈ s.edges
  allOut : ∀ b i, p.block i = some b → p.terminator i = true → s.status i = some .varying →
    ∀ d ∈ p.succs b, d ≠ p.pseudoExit → (b, d) ∈ s.edges
  chosen : ∀ c ∈ s.trace, ∀ b d, c.status = .interesting → c.dest = some d →
    p.block c.inst = some b → d ≠ p.pseudoExit → (b, d) ∈ s.edges
  only : ∀ u v, (u, v) ∈ s.edges → (u = p.pseudoEntry ∧ v = p.entry) ∨
    (p.succs u = [v] ∨ ∃ c ∈ s.trace, p.block c.inst = some u ∧
      ((c.status = .varying ∧ p.terminator c.inst = true ∧ v ∈ p.succs u) ∨
       (c.status = .interesting ∧ c.dest = some v)))
  stab : ∀ i d b, Uses p i d → p.block i = some b → b ∈ s.simulated ∨ cur = some b →
    Stale i d s.trace → s.status i = some .varying ∨ i ∈ s.ssa ∨ i ∈ todo ∨
      (p.isPhi i = true ∧ (b ∈ s.blocks ∨ ∀ q, (d, q) ∈ p.args i → (q, b) ∉ s.edges))
  sees : ∀ i b, p.isPhi i = true → p.block i = some b → b ∈ s.simulated ∨ cur = some b →
    s.status i = some .varying ∨ i ∈ todo ∨ b ∈ s.blocks ∨ Saw p i b s
  dnsPhi : ∀ i ∈ s.dns, ∀ b, p.isPhi i = true → p.block i = some b → s.status i = some .varying ∨
    ∃ c, s.trace.find? (fun c => decide (c.inst = i)) = some c ∧ ∀ a ∈ p.args i, (a.2, b) ∈ c.seen

variable {p : Prog I B}

/-- An instruction that must not be simulated again may leave the list. -/
theorem Inv.skip (wf : WellFormed p) {cur : Option B} {i : I} {todo : List I} {s : State I B V}
    (inv : Inv p cur (i :: todo) s) (hi : i ∈ s.dns) : Inv p cur todo s := by
  refine ⟨inv.st, inv.dnsSeen, inv.dnsFin, inv.ssaSim, inv.blk, ?_, inv.pending, inv.curNot, inv.seed, inv.path,
    ?_, inv.single, inv.allOut, inv.chosen, inv.only, ?_, ?_, inv.dnsPhi⟩
  · intro u v huv
    obtain ⟨h1, h2⟩ := inv.edge u v huv
    refine ⟨h1, h2.imp id (And.imp id (Or.imp id fun h => ?_))⟩
    cases h.2
  · intro b j hb hj
    rcases inv.visited b j hb hj with h | h
    · rcases List.mem_cons.mp h with rfl | h
      · exact .inr (inv.dnsSeen _ hi)
      · exact .inl h
    · exact .inr h
  · intro j d b hu hb hs hst
    rcases inv.stab j d b hu hb hs hst with h | h | h | h
    · exact .inl h
    · exact .inr (.inl h)
    · rcases List.mem_cons.mp h with rfl | h
      · rcases inv.dnsFin _ hi with h | h
        · exact .inl h
        · exact absurd hst (h d hu).2
      · exact .inr (.inr (.inl h))
    · exact .inr (.inr (.inr h))
  · intro j b hp hb hs
    rcases inv.sees j b hp hb hs with h | h | h
    · exact .inl h
    · rcases List.mem_cons.mp h with rfl | h
      · rcases inv.dnsPhi _ hi b hp hb with h | ⟨c, h1, h2⟩
        · exact .inl h
        · exact .inr (.inr (.inr ⟨c, h1, fun a ha _ => h2 a ha⟩))
      · exact .inr (.inl h)
    · exact .inr (.inr h)

/-- While `b` is simulated for the first time and its terminator has not been reached, no
value defined in `b` can have come back to a phi of `b`. -/
theorem Inv.phi_closed (wf : WellFormed p) {b : B} {todo : List I} {s : State I B V}
    (inv : Inv p (some b) todo s) (hne : todo ≠ []) {i d : I} (hp : p.isPhi i = true)
    (hb : p.block i = some b) (hd : p.block d = some b) :
    ∀ q, (d, q) ∈ p.args i → (q, b) ∉ s.edges := by
  intro q hq he
  obtain ⟨h1, h2⟩ := wf.phiArgs i b d q hp hb hq
  obtain ⟨hb0, -, -⟩ := inv.curNot b rfl
  obtain ⟨-, h3⟩ := inv.edge q b he
  rcases h3 with ⟨h, -⟩ | ⟨-, h | ⟨-, h⟩⟩
  · exact h1 h
  · obtain ⟨l, hl, hin⟩ := inv.path q h
    exact hb0 (hin b (h2 b hd l (path_mono (fun _ _ h => h.2) hl)))
  · exact hne h

/-- One visit preserves the invariant. `cur`/`todo` describe where the instruction came from:
it is in the current block with `todo` after it, or no block is being simulated for the first
time. -/
theorem Inv.step (wf : WellFormed p) {cur : Option B} {i : I} {todo : List I} {s s' : State I B V}
    {b : B} {c : Call I B} (inv : Inv p cur (i :: todo) s) (h : Step p i b c s s')
    (hdest : ∀ d, c.dest = some d → p.terminator i = true ∧ d ∈ p.succs b)
    (hsrc : (cur = none ∧ b ∈ s.simulated) ∨ (cur = some b ∧
      ((p.terminator i = true → todo = []) ∧
       ∀ j, p.isPhi j = false → Uses p j i → p.block j = some b → j ∈ todo))) : Inv p cur todo s' := by
  -- nothing happens between `cur` and its own edges before its terminator
  have term_edge : ∀ u v, (u, v) ∈ s'.edges → (u, v) ∉ s.edges →
      u = b ∧ v ≠ p.pseudoExit ∧ p.terminator i = true ∧ v ∈ p.succs b := by
    intro u v h1 h2
    rcases (h.edges u v).mp h1 with h1 | ⟨rfl, h3, ⟨-, h4, h5⟩ | ⟨-, h4⟩⟩
    · exact absurd h1 h2
    · exact ⟨rfl, h3, h4, h5⟩
    · exact ⟨rfl, h3, hdest v h4⟩
  have edges_mono : ∀ {u v}, (u, v) ∈ s.edges → (u, v) ∈ s'.edges := fun {u v} he => (h.edges u v).mpr (.inl he)
  have blocks_mono : ∀ {x}, x ∈ s.blocks → x ∈ s'.blocks := fun {x} hx => (h.blocks x).mpr (.inl hx)
  have bpx : b ≠ p.pseudoExit := wf.exit b i ((wf.block i b).mp h.block)
  have status_i : s'.status i = some c.status := by rw [h.status, if_pos rfl]
  -- a status once varying stays so
  have vary : ∀ {j}, s.status j = some .varying → s'.status j = some .varying := by
    intro j hj
    rw [h.status]
    split
    · next e =>
      rw [e] at hj
      have := h.order _ hj
      cases hc : c.status <;> rw [hc] at this <;> simp [Status.rank] at this ⊢
    · exact hj
  -- change of staleness
  have stale' : ∀ {j d}, Stale j d s'.trace ↔ ((i = d ∧ Changes s.trace c) ∨ (i ≠ j ∧ Stale j d s.trace)) := by
    intro j d
    rw [h.trace]
    simp only [Stale, h.inst]
  have find_ne : ∀ {j}, j ≠ i → s'.trace.find? (fun c => decide (c.inst = j)) =
      s.trace.find? (fun c => decide (c.inst = j)) := by
    intro j hj
    rw [h.trace, List.find?_cons, h.inst, decide_eq_false (Ne.symm hj)]
  have find_i : s'.trace.find? (fun c => decide (c.inst = i)) = some c := by
    rw [h.trace, List.find?_cons, h.inst, decide_eq_true rfl]
  have saw : ∀ {j x} (c' : Call I B), s'.trace.find? (fun c => decide (c.inst = j)) = some c' →
      (∀ a ∈ p.args j, (a.2, x) ∈ s.edges → (a.2, x) ∈ c'.seen) → x ∈ s'.blocks ∨ Saw p j x s' := by
    intro j x c' hf hh
    by_cases hex : ∃ a ∈ p.args j, (a.2, x) ∈ s'.edges ∧ (a.2, x) ∉ s.edges
    · obtain ⟨a, -, h1, h2⟩ := hex
      exact .inl ((h.blocks x).mpr (.inr ⟨a.2, h1, h2⟩))
    · refine .inr ⟨c', hf, fun a ha he => hh a ha ?_⟩
      exact Classical.byContradiction fun hn => hex ⟨a, ha, he, hn⟩
  refine ⟨?_, ?_, ?_, ?_, ?_, ?_, ?_, ?_, ?_, ?_, ?_, ?_, ?_, ?_, ?_, ?_, ?_, ?_⟩
  · intro j
    rw [h.status, h.trace, lastStatus_cons, h.inst, inv.st]
  · intro j hj
    rw [h.status]
    split
    · simp
    · next hne =>
      rcases h.dns j hj with hj | ⟨rfl, -⟩
      · exact inv.dnsSeen j hj
      · exact absurd rfl hne
  · intro j hj
    rcases h.dns j hj with hj' | ⟨rfl, hv | hall⟩
    · rcases inv.dnsFin j hj' with hv | hall
      · exact .inl (vary hv)
      · refine .inr fun d hu => ?_
        obtain ⟨h1, h2⟩ := hall d hu
        refine ⟨h.dnsMono d h1, fun hst => ?_⟩
        rcases stale'.mp hst with ⟨rfl, -⟩ | ⟨-, hst⟩
        · exact h.fresh h1
        · exact h2 hst
    · exact .inl (by rw [status_i, hv])
    · refine .inr fun d hu => ⟨h.dnsMono d (hall d hu), fun hst => ?_⟩
      rcases stale'.mp hst with ⟨rfl, -⟩ | ⟨hne, -⟩
      · exact h.fresh (hall _ hu)
      · exact hne rfl
  · intro u hu
    rw [h.simulated]
    rcases h.ssaNew u hu with hu | hu
    · exact inv.ssaSim u hu
    · exact hu
  · intro x hx
    rcases (h.blocks x).mp hx with hx | ⟨u, h1, h2⟩
    · obtain ⟨k1, u, k2⟩ := inv.blk x hx
      exact ⟨k1, u, edges_mono k2⟩
    · exact ⟨(term_edge u x h1 h2).2.1, u, h1⟩
  · intro u v huv
    by_cases hold : (u, v) ∈ s.edges
    · obtain ⟨k1, k2⟩ := inv.edge u v hold
      refine ⟨k1, k2.imp id (And.imp id fun hh => ?_)⟩
      rw [h.simulated]
      rcases hh with hh | ⟨-, hh⟩
      · exact .inl hh
      · cases hh
    · obtain ⟨rfl, k1, k2, k3⟩ := term_edge u v huv hold
      refine ⟨k1, .inr ⟨k3, ?_⟩⟩
      rw [h.simulated]
      rcases hsrc with ⟨-, hs⟩ | ⟨hs, ht, -⟩
      · exact .inl hs
      · exact .inr ⟨hs, ht k2⟩
  · intro u v huv
    rw [h.simulated]
    by_cases hold : (u, v) ∈ s.edges
    · exact (inv.pending u v hold).imp id (Or.imp blocks_mono id)
    · exact .inr (.inl ((h.blocks v).mpr (.inr ⟨u, huv, hold⟩)))
  · intro x hx
    rw [h.simulated]
    obtain ⟨k1, k2, u, k3, k4⟩ := inv.curNot x hx
    exact ⟨k1, k2, u, edges_mono k3, k4⟩
  · exact edges_mono inv.seed
  · intro x hx
    rw [h.simulated] at hx ⊢
    obtain ⟨q, k1, k2⟩ := inv.path x hx
    exact ⟨q, path_mono (fun _ _ hh => ⟨edges_mono hh.1, hh.2⟩) k1, k2⟩
  · intro x j hx hj
    rw [h.simulated] at hx
    rcases inv.visited x j hx hj with hh | hh
    · rcases List.mem_cons.mp hh with rfl | hh
      · exact .inr (by rw [status_i]; simp)
      · exact .inl hh
    · refine .inr ?_
      rw [h.status]
      split
      · simp
      · exact hh
  · intro x hx d hd hpx
    rw [h.simulated] at hx
    exact edges_mono (inv.single x hx d hd hpx)
  · intro x j hx ht hv d hd hpx
    by_cases hji : j = i
    · rw [hji] at hv ht hx
      rw [status_i] at hv
      rw [h.block] at hx
      cases hx
      exact (h.edges _ _).mpr (.inr ⟨rfl, hpx, .inl ⟨Option.some.inj hv, ht, hd⟩⟩)
    · rw [h.status, if_neg hji] at hv
      exact edges_mono (inv.allOut x j hx ht hv d hd hpx)
  · intro c' hc' x d hs hd hb hpx
    rw [h.trace] at hc'
    rcases List.mem_cons.mp hc' with rfl | hc'
    · rw [h.inst, h.block] at hb
      cases hb
      exact (h.edges _ _).mpr (.inr ⟨rfl, hpx, .inr ⟨hs, hd⟩⟩)
    · exact edges_mono (inv.chosen c' hc' x d hs hd hb hpx)
  · intro u v huv
    rw [h.trace]
    rcases (h.edges u v).mp huv with hold | ⟨rfl, -, k⟩
    · refine (inv.only u v hold).imp id (Or.imp id ?_)
      rintro ⟨c', h1, h2⟩
      exact ⟨c', List.mem_cons_of_mem _ h1, h2⟩
    · refine .inr (.inr ⟨c, by simp, by rw [h.inst]; exact h.block, ?_⟩)
      rw [h.inst]; exact k
  · intro j d x hu hb hs hst
    rw [h.simulated] at hs
    rcases stale'.mp hst with ⟨rfl, hch⟩ | ⟨hne, hst⟩
    · -- `i` changed, and `j` uses it
      have hch2 : s.status i ≠ some c.status := by rw [inv.st, ← h.inst]; exact hch.2
      rcases hs with hs | hs
      · by_cases hjd : j ∈ s.dns
        · rcases inv.dnsFin j hjd with hv | hall
          · exact .inl (vary hv)
          · exact absurd (hall _ hu).1 h.fresh
        · by_cases hji : j = i ∧ c.status = .varying
          · rw [hji.1, status_i, hji.2]; exact .inl rfl
          · have hor : j ≠ i ∨ c.status ≠ .varying := by
              by_cases hji' : j = i
              · exact .inr fun hv => hji ⟨hji', hv⟩
              · exact .inl hji'
            exact .inr (.inl (h.ssaUsers hch.1 hch2 j (wf.users j i hu) x hb hs hjd hor))
      · -- in the block being simulated
        rcases hsrc with ⟨hh, -⟩ | ⟨hh, -, horder⟩
        · rw [hs] at hh; cases hh
        · have hxb : x = b := by rw [hs] at hh; exact Option.some.inj hh
          subst hxb
          cases hp : p.isPhi j with
          | false => exact .inr (.inr (.inl (horder j hp hu hb)))
          | true =>
            subst hs
            by_cases ht : p.terminator i = true
            · exact absurd hu (wf.termUse j i ht)
            · refine .inr (.inr (.inr ⟨rfl, .inr fun q hq hh => ?_⟩))
              by_cases hold : (q, x) ∈ s.edges
              · exact inv.phi_closed wf (by simp) hp hb h.block q hq hold
              · exact ht (term_edge q x hh hold).2.2.1
    · -- `j` is another instruction, already stale
      rcases inv.stab j d x hu hb hs hst with k | k | k | ⟨k1, k2⟩
      · exact .inl (vary k)
      · exact .inr (.inl (h.ssaOld j k))
      · rcases List.mem_cons.mp k with rfl | k
        · exact absurd rfl hne
        · exact .inr (.inr (.inl k))
      · refine .inr (.inr (.inr ⟨k1, ?_⟩))
        rcases k2 with k2 | k2
        · exact .inl (blocks_mono k2)
        · by_cases hex : ∃ q, (d, q) ∈ p.args j ∧ (q, x) ∈ s'.edges
          · obtain ⟨q, hq, he⟩ := hex
            exact .inl ((h.blocks x).mpr (.inr ⟨q, he, k2 q hq⟩))
          · exact .inr fun q hq he => hex ⟨q, hq, he⟩
  · intro j x hp hx hs
    rw [h.simulated] at hs
    by_cases hji : j = i
    · rw [hji]
      exact .inr (.inr (saw c find_i fun a _ he => by rw [h.seen]; exact he))
    · rcases inv.sees j x hp hx hs with k | k | k | ⟨c', k1, k2⟩
      · exact .inl (vary k)
      · exact .inr (.inl ((List.mem_cons.mp k).resolve_left hji))
      · exact .inr (.inr (.inl (blocks_mono k)))
      · exact .inr (.inr (saw c' ((find_ne hji).trans k1) k2))
  · intro j hj x hp hx
    by_cases hji : j = i
    · rw [hji] at hj hp hx ⊢
      rw [h.block] at hx
      cases hx
      rcases h.dnsPhi hj with k | k
      · exact .inl (by rw [status_i, k])
      · refine .inr ⟨c, find_i, fun a ha => ?_⟩
        rw [h.seen]
        refine Classical.byContradiction fun hn => ?_
        have ht := (term_edge _ _ (k hp a ha) hn).2.2.1
        rw [wf.termPhi i ht] at hp
        cases hp
    · have hj' : j ∈ s.dns := (h.dns j hj).resolve_right fun hh => hji hh.1
      rcases inv.dnsPhi j hj' x hp hx with k | ⟨c', k1, k2⟩
      · exact .inl (vary k)
      · exact .inr ⟨c', (find_ne hji).trans k1, k2⟩

end Verif.Propagator
