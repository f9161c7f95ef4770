import Verif.Propagator.Run
set_option linter.unusedSimpArgs false
set_option linter.unusedVariables false
set_option linter.unusedSectionVars false
namespace Verif.Propagator
open Verif.Cfa Verif.Cfa.Spec Spec
variable {I B V : Type} [DecidableEq I] [DecidableEq B] [Blocks I] [Blocks B]
variable {p : Prog I B} {visit : V → List (B × B) → I → V × Answer B}

instance pairBlocks : Blocks (B × B) :=
  ⟨(Blocks.all (B := B)).flatMap fun a => (Blocks.all (B := B)).map fun b => (a, b), fun x => by
    obtain ⟨a, b⟩ := x
    rw [List.mem_flatMap]
    exact ⟨a, Blocks.complete a, List.mem_map.mpr ⟨b, Blocks.complete b, rfl⟩⟩⟩

/-- How often a status may still change. -/
def weight : Option Status → Nat
  | none => 3
  | some st => 2 - st.rank

def total (l : List I) (f : I → Nat) : Nat := (l.map f).sum

theorem total_le (l : List I) (f g : I → Nat) (h : ∀ i, f i ≤ g i) : total l f ≤ total l g := by
  induction l with
  | nil => exact Nat.le_refl _
  | cons a l ih => simp only [total, List.map_cons, List.sum_cons] at ih ⊢; have := h a; omega

theorem total_lt (l : List I) (f g : I → Nat) (h : ∀ i, f i ≤ g i) {i : I} (hi : i ∈ l) (hlt : f i < g i) :
    total l f + 1 ≤ total l g := by
  induction l with
  | nil => cases hi
  | cons a l ih =>
    have hle := total_le l f g h
    have ha := h a
    simp only [total, List.map_cons, List.sum_cons] at ih hle ⊢
    rcases List.mem_cons.mp hi with rfl | hi
    · omega
    · have := ih hi; omega

theorem le_total (l : List I) (f : I → Nat) {i : I} (hi : i ∈ l) : f i ≤ total l f := by
  induction l with
  | nil => cases hi
  | cons a l ih =>
    simp only [total, List.map_cons, List.sum_cons] at ih ⊢
    rcases List.mem_cons.mp hi with rfl | hi
    · omega
    · have := ih hi; omega

/-- Registered uses in the function. -/
def uses (p : Prog I B) : Nat := total Blocks.all fun i => (p.users i).length

/-- Decreases with every round of the loop. -/
def potential (p : Prog I B) (s : State I B V) : Nat :=
  s.blocks.length + unseen s.edges + s.ssa.length +
    uses p * total Blocks.all (fun i => weight (s.status i))

theorem addControlEdge_size (b d : B) (s : State I B V) :
    (addControlEdge p b d s).blocks.length + unseen (addControlEdge p b d s).edges ≤
      s.blocks.length + unseen s.edges ∧ (addControlEdge p b d s).ssa = s.ssa ∧
    (addControlEdge p b d s).status = s.status := by
  unfold addControlEdge
  split
  · simp
  · split
    · simp
    · next h =>
      have := unseen_lt s.edges (b, d) h
      simp only [List.length_append, List.length_singleton, and_self, and_true]
      omega

theorem addControlEdges_size (b : B) : ∀ (ds : List B) (s : State I B V),
    (addControlEdges p b ds s).blocks.length + unseen (addControlEdges p b ds s).edges ≤
      s.blocks.length + unseen s.edges ∧ (addControlEdges p b ds s).ssa = s.ssa ∧
    (addControlEdges p b ds s).status = s.status
  | [], s => by simp [addControlEdges]
  | d :: ds, s => by
    unfold addControlEdges
    have h1 := addControlEdge_size (p := p) b d s
    have h2 := addControlEdges_size b ds (addControlEdge p b d s)
    exact ⟨Nat.le_trans h2.1 h1.1, h2.2.1.trans h1.2.1, h2.2.2.trans h1.2.2⟩

theorem ssaUsers_length (s : State I B V) (i : I) : (ssaUsers p s i).length ≤ uses p :=
  Nat.le_trans (List.length_filter_le _ _) (le_total _ (fun i => (p.users i).length) (Blocks.complete i))

/-- Setting a status, and queueing users if it changed. -/
theorem setStatus_potential (i : I) (st : Status) (s s1 s2 : State I B V)
    (hb : s1.blocks = s.blocks) (he : s1.edges = s.edges) (hs : s1.ssa = s.ssa)
    (hst : s1.status = fun j => if j = i then some st else s.status j)
    (hd : descends (s.status i) st = false)
    (h2 : s2 = s1 ∨ (s.status i ≠ some st ∧ s2 = addSSAEdges p i s1)) : potential p s2 ≤ potential p s := by
  have wle : ∀ j, weight (s1.status j) ≤ weight (s.status j) := by
    intro j
    rw [hst]
    dsimp only
    by_cases hj : j = i
    · rw [if_pos hj, hj]
      cases ho : s.status i with
      | none => simp only [weight]; omega
      | some o =>
        rw [ho] at hd
        simp only [descends, decide_eq_false_iff_not] at hd
        simp only [weight]; omega
    · rw [if_neg hj]; exact Nat.le_refl _
  rcases h2 with rfl | ⟨hne, rfl⟩
  · unfold potential
    rw [hb, he, hs]
    have := Nat.mul_le_mul_left (uses p) (total_le Blocks.all (fun i => weight (s2.status i)) (fun i => weight (s.status i)) wle)
    omega
  · have wlt : weight (s1.status i) < weight (s.status i) := by
      rw [hst]
      dsimp only
      rw [if_pos rfl]
      cases ho : s.status i with
      | none => simp only [weight]; omega
      | some o =>
        rw [ho] at hd hne
        simp only [descends, decide_eq_false_iff_not] at hd
        simp only [weight]
        cases o <;> cases st <;> simp_all [Status.rank]
    have h1 := total_lt Blocks.all (fun i => weight (s1.status i)) (fun i => weight (s.status i)) wle (Blocks.complete i) wlt
    have h2 := Nat.mul_le_mul_left (uses p) h1
    rw [Nat.mul_add, Nat.mul_one] at h2
    have h3 := ssaUsers_length (p := p) s1 i
    unfold potential addSSAEdges
    simp only [List.length_append]
    rw [hb, he, hs]
    omega

theorem potential_dns (s : State I B V) (l : List I) : potential p { s with dns := l } = potential p s := rfl

theorem potential_edge (b d : B) (s : State I B V) : potential p (addControlEdge p b d s) ≤ potential p s := by
  obtain ⟨h1, h2, h3⟩ := addControlEdge_size (p := p) b d s
  unfold potential
  rw [h2, h3]; omega

theorem potential_edges (b : B) (ds : List B) (s : State I B V) :
    potential p (addControlEdges p b ds s) ≤ potential p s := by
  obtain ⟨h1, h2, h3⟩ := addControlEdges_size (p := p) b ds s
  unfold potential
  rw [h2, h3]; omega

theorem simulate_potential {i : I} {s s' : State I B V} {ch} (h : simulate p visit i s = .ok s' ch) :
    potential p s' ≤ potential p s := by
  unfold simulate at h
  by_cases hd : i ∈ s.dns
  · rw [if_pos hd] at h
    cases h
    exact Nat.le_refl _
  · rw [if_neg hd] at h
    generalize hv : visit s.val s.edges i = a at h
    obtain ⟨v, st, dest⟩ := a
    cases st with
    | none => cases h
    | some st =>
      dsimp only at h
      cases hb : p.block i with
      | none => rw [hb] at h; cases h
      | some b =>
        rw [hb] at h
        dsimp only at h
        cases hord : descends (s.status i) st with
        | true => rw [hord] at h; simp at h
        | false =>
          rw [hord] at h
          simp only [Bool.false_eq_true, if_false] at h
          cases st with
          | varying =>
            dsimp only at h
            have key := setStatus_potential (p := p) i .varying s
              { s with val := v, trace := ⟨i, .varying, dest, s.edges⟩ :: s.trace,
                       status := fun j => if j = i then some .varying else s.status j, dns := i :: s.dns }
              (if decide (s.status i ≠ some .varying) = true then addSSAEdges p i
                { s with val := v, trace := ⟨i, .varying, dest, s.edges⟩ :: s.trace,
                         status := fun j => if j = i then some .varying else s.status j, dns := i :: s.dns }
               else { s with val := v, trace := ⟨i, .varying, dest, s.edges⟩ :: s.trace,
                             status := fun j => if j = i then some .varying else s.status j, dns := i :: s.dns })
              rfl rfl rfl rfl hord (by
                by_cases hc : s.status i = some .varying
                · exact .inl (by simp [hc])
                · exact .inr ⟨hc, by simp [hc]⟩)
            by_cases ht : p.terminator i = true
            · rw [if_pos ht] at h
              cases hs : p.succs b with
              | nil => rw [hs] at h; cases h
              | cons d ds =>
                rw [hs] at h
                dsimp only at h
                cases h
                exact Nat.le_trans (potential_edges _ _ _) key
            · rw [if_neg ht] at h
              cases h
              exact key
          | notInteresting =>
            dsimp only at h
            let s1 : State I B V := { s with
              val := v, trace := ⟨i, .notInteresting, dest, s.edges⟩ :: s.trace,
              status := fun j => if j = i then some .notInteresting else s.status j }
            have key := setStatus_potential (p := p) i .notInteresting s s1 s1 rfl rfl rfl rfl hord (.inl rfl)
            have h' : Res.ok (if hasOperandsToSimulate p s1 i b = true then s1
                else { s1 with dns := i :: s1.dns }) (decide (Status.notInteresting = .interesting)) = Res.ok s' ch := by
              rw [← h]; simp [s1]
            rw [← (Res.ok.inj h').1]
            split
            · exact key
            · exact key
          | interesting =>
            dsimp only at h
            let s1 : State I B V := { s with
              val := v, trace := ⟨i, .interesting, dest, s.edges⟩ :: s.trace,
              status := fun j => if j = i then some .interesting else s.status j }
            let s2 : State I B V := if decide (s.status i ≠ some .interesting) = true ∧ Status.interesting = .interesting
              then addSSAEdges p i s1 else s1
            let s3 : State I B V := match dest with
              | some d => addControlEdge p b d s2
              | none => s2
            have key := setStatus_potential (p := p) i .interesting s s1 s2 rfl rfl rfl rfl hord (by
                by_cases hc : s.status i = some .interesting
                · exact .inl (by simp [s2, hc])
                · exact .inr ⟨hc, by simp [s2, hc]⟩)
            have k3 : potential p s3 ≤ potential p s2 := by
              cases dest with
              | none => exact Nat.le_refl _
              | some d => exact potential_edge _ _ _
            have h' : Res.ok (if hasOperandsToSimulate p s3 i b = true then s3
                else { s3 with dns := i :: s3.dns }) (decide (Status.interesting = .interesting)) = Res.ok s' ch := by
              rw [← h]
              cases dest <;> rfl
            rw [← (Res.ok.inj h').1]
            have := Nat.le_trans k3 key
            split
            · exact this
            · exact this

theorem all_potential : ∀ (l : List I) (s s' : State I B V) (ch ch'),
    simulateAll p visit l s ch = .ok s' ch' → potential p s' ≤ potential p s
  | [], s, s', ch, ch', h => by cases h; exact Nat.le_refl _
  | i :: l, s, s', ch, ch', h => by
    unfold simulateAll at h
    cases hs : simulate p visit i s with
    | fault => rw [hs] at h; cases h
    | descended => rw [hs] at h; cases h
    | failed => rw [hs] at h; cases h
    | ok s1 c =>
      rw [hs] at h
      exact Nat.le_trans (all_potential l s1 s' _ _ h) (simulate_potential hs)

theorem block_potential {b : B} {s s' : State I B V} {ch} (h : simulateBlock p visit b s = .ok s' ch) :
    potential p s' ≤ potential p s := by
  unfold simulateBlock at h
  split at h
  · cases h; exact Nat.le_refl _
  · cases h1 : simulateAll p visit (p.phis b) s false with
    | fault => rw [h1] at h; cases h
    | descended => rw [h1] at h; cases h
    | failed => rw [h1] at h; cases h
    | ok s1 c1 =>
      rw [h1] at h
      dsimp only at h
      have k1 := all_potential _ _ _ _ _ h1
      split at h
      · cases h; exact k1
      · cases h2 : simulateAll p visit (p.insts b) s1 c1 with
        | fault => rw [h2] at h; cases h
        | descended => rw [h2] at h; cases h
        | failed => rw [h2] at h; cases h
        | ok s2 c2 =>
          rw [h2] at h
          dsimp only at h
          have k2 := Nat.le_trans (all_potential _ _ _ _ _ h2) k1
          cases hs : p.succs b with
          | nil => rw [hs] at h; cases h
          | cons d ds =>
            rw [hs] at h
            cases ds with
            | nil =>
              dsimp only at h
              cases h
              exact Nat.le_trans (potential_edge _ _ _) k2
            | cons d' ds =>
              dsimp only at h
              cases h
              exact k2

theorem loop_ends : ∀ (fuel : Nat) (s : State I B V) (ch : Bool), potential p s < fuel →
    loop p visit fuel s ch ≠ .outOfFuel
  | 0, _, _, h => by omega
  | fuel + 1, s, ch, hf => by
    unfold loop
    cases hq : s.blocks with
    | cons b rest =>
      dsimp only
      cases h : simulateBlock p visit b { s with blocks := rest } with
      | fault => simp
      | descended => simp
      | failed => simp
      | ok s1 c =>
        dsimp only
        refine loop_ends fuel s1 _ ?_
        have := block_potential h
        have e : potential p { s with blocks := rest } + 1 = potential p s := by
          unfold potential; rw [hq]; simp only [List.length_cons]; omega
        omega
    | nil =>
      dsimp only
      cases hs : s.ssa with
      | nil => simp
      | cons i rest =>
        dsimp only
        cases h : simulate p visit i { s with ssa := rest, blocks := [] } with
        | fault => simp
        | descended => simp
        | failed => simp
        | ok s1 c =>
          dsimp only
          refine loop_ends fuel s1 _ ?_
          have := simulate_potential h
          have e : potential p { s with ssa := rest, blocks := [] } + 1 = potential p s := by
            unfold potential; rw [hq, hs]; simp only [List.length_cons, List.length_nil]; omega
          omega

end Verif.Propagator
