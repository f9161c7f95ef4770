import Verif.Adce.Static
/-!
# The construct analysis finds the innermost construct around a block
-/
set_option linter.unusedSimpArgs false
set_option linter.unusedVariables false
set_option linter.unusedSectionVars false
namespace Verif.Adce
open Spec

section
variable {F : Func} (hv : Valid F) (hs : Structured F)

theorem pos_append {d r : List Block} {b : Block} (hv : Valid F) (h : F.order = d ++ b :: r) :
    pos F b.id = d.length := by
  have hn := hv.labels
  rw [h] at hn
  simp only [pos, h, List.map_append, List.map_cons]
  rw [List.idxOf_append]
  have : b.id ∉ d.map (·.id) := by
    intro hm
    simp only [List.map_append, List.map_cons] at hn
    exact (List.nodup_append.1 hn).2.2 _ hm _ (by simp) rfl
  simp only [this, if_false, List.idxOf_cons_self, List.length_map, Nat.zero_add]

theorem pos_inj {a b : Id} (ha : Label F a) (h : pos F a = pos F b) : a = b := by
  obtain ⟨A, hA, rfl⟩ := ha
  have hm : A.id ∈ F.order.map (·.id) := List.mem_map.2 ⟨A, hA, rfl⟩
  have hl : (F.order.map (·.id)).idxOf A.id < (F.order.map (·.id)).length := List.idxOf_lt_length_iff.2 hm
  have hb : b ∈ F.order.map (·.id) := List.idxOf_lt_length_iff.1 (by unfold pos at h; omega)
  have e1 := List.getElem_idxOf hl
  have e2 := List.getElem_idxOf (List.idxOf_lt_length_iff.2 hb)
  unfold pos at h
  rw [← e1, ← e2]
  simp only [h]

theorem inside_header (hv : Valid F) {h b : Id} {H : Block} {g : Merge} (hi : Inside F h b) (hH : H ∈ F.order)
    (e : H.id = h) (hg : H.merge = some g) : pos F h < pos F b ∧ pos F b < pos F g.block := by
  obtain ⟨H', hH', e', g', hg', hp⟩ := hi
  have : some H' = some H := by rw [← block_eq hv hH', ← block_eq hv hH, e, e']
  cases this
  rw [hg] at hg'
  cases hg'
  exact hp

theorem inside_lt {h b : Id} (hi : Inside F h b) : pos F h < pos F b := by
  obtain ⟨_, _, _, _, _, hp, _⟩ := hi
  exact hp

/-- The open constructs before the position `k`, innermost first. -/
structure Open (F : Func) (k : Nat) (st : List (Id × Id)) : Prop where
  sound : ∀ e ∈ st, ∃ H ∈ F.order, H.id = e.1 ∧ ∃ g, H.merge = some g ∧ g.block = e.2 ∧
    pos F e.1 < k ∧ k ≤ pos F e.2
  complete : ∀ H ∈ F.order, ∀ g, H.merge = some g → pos F H.id < k → k ≤ pos F g.block →
    (H.id, g.block) ∈ st
  sorted : st.Pairwise (fun a b => pos F b.1 < pos F a.1)

/-- What is asked of `ContainingConstruct`. -/
def Innermost (F : Func) (b : Id) : Option Id → Prop
  | none => ∀ h, ¬ Inside F h b
  | some h => Inside F h b ∧ ∀ h', Inside F h' b → h' = h ∨ Inside F h' h

def popped (b : Id) (st : List (Id × Id)) : List (Id × Id) :=
  match st with
  | (h, m) :: st' => if b = m then st' else (h, m) :: st'
  | [] => []

include hv hs in
theorem popped_open {b : Block} {st : List (Id × Id)} (hb : b ∈ F.order) (ho : Open F (pos F b.id) st) :
    (∀ e ∈ popped b.id st, ∃ H ∈ F.order, H.id = e.1 ∧ ∃ g, H.merge = some g ∧ g.block = e.2 ∧
      pos F e.1 < pos F b.id ∧ pos F b.id < pos F e.2) ∧
    (∀ H ∈ F.order, ∀ g, H.merge = some g → pos F H.id < pos F b.id → pos F b.id < pos F g.block →
      (H.id, g.block) ∈ popped b.id st) ∧
    (popped b.id st).Pairwise (fun a b => pos F b.1 < pos F a.1) := by
  cases st with
  | nil =>
    refine ⟨by simp [popped], ?_, by simp [popped]⟩
    intro H hH g hg h1 h2
    have := ho.complete H hH g hg h1 (by omega)
    cases this
  | cons e st =>
    obtain ⟨h, m⟩ := e
    have hsrt := List.pairwise_cons.1 ho.sorted
    obtain ⟨H0, hH0, e0, g0, hg0, em0, hp0, hq0⟩ := ho.sound (h, m) (by simp)
    simp only at e0 em0 hp0 hq0
    have hrest : ∀ e ∈ st, ∃ H ∈ F.order, H.id = e.1 ∧ ∃ g, H.merge = some g ∧ g.block = e.2 ∧
        pos F e.1 < pos F b.id ∧ pos F b.id < pos F e.2 := by
      intro e he
      obtain ⟨H, hH, e1, g, hg, em, hp, hq⟩ := ho.sound e (by simp [he])
      refine ⟨H, hH, e1, g, hg, em, hp, ?_⟩
      have hlt := hsrt.1 e he
      have hin : Inside F H.id H0.id := ⟨H, hH, rfl, g, hg, by rw [e1, e0]; exact hlt, by
        rw [e0, em]; omega⟩
      have := hs.nested H hH g hg H0 hH0 g0 hg0 hin
      rw [em0, em] at this
      omega
    by_cases hm : b.id = m
    · simp only [popped, hm, if_true]
      rw [← hm]
      refine ⟨hrest, ?_, hsrt.2⟩
      intro H hH g hg h1 h2
      rcases List.mem_cons.1 (ho.complete H hH g hg h1 (by omega)) with h' | h'
      · cases h'
        rw [← hm] at h2
        omega
      · exact h'
    · simp only [popped, hm, if_false]
      refine ⟨?_, ?_, ho.sorted⟩
      · intro e he
        rcases List.mem_cons.1 he with rfl | he
        · refine ⟨H0, hH0, e0, g0, hg0, em0, hp0, ?_⟩
          have : pos F b.id ≠ pos F m := fun e => hm (pos_inj ⟨b, hb, rfl⟩ e)
          simp only
          omega
        · exact hrest e he
      · intro H hH g hg h1 h2
        exact ho.complete H hH g hg h1 (by omega)

include hv hs in
theorem analyse_spec : ∀ (r d : List Block) (st : List (Id × Id)), F.order = d ++ r → Open F d.length st →
    ∀ b ∈ r, ∃ x, (analyse r st).lookup b.id = some x ∧ Innermost F b.id x := by
  intro r
  induction r with
  | nil => intro d st _ _ b hb; cases hb
  | cons c r ih =>
    intro d st hd ho b hb
    have hc : c ∈ F.order := by rw [hd]; simp
    have hpc := pos_append hv hd
    rw [← hpc] at ho
    obtain ⟨h1, h2, h3⟩ := popped_open hv hs hc ho
    have hst : analyse (c :: r) st = (c.id, (popped c.id st).head?.map (·.1)) ::
        analyse r (match c.merge with
          | some g => (c.id, g.block) :: popped c.id st
          | none => popped c.id st) := by
      cases st with
      | nil => simp only [analyse, popped]; cases c.merge <;> rfl
      | cons e st => simp only [analyse, popped]; cases c.merge <;> rfl
    rw [hst, List.lookup_cons]
    by_cases hbc : b.id = c.id
    · rw [hbc]
      simp only [beq_self_eq_true]
      refine ⟨_, rfl, ?_⟩
      cases hp : popped c.id st with
      | nil =>
        intro h hi
        obtain ⟨H, hH, e, g, hg, hlt, hgt⟩ := hi
        have := h2 H hH g hg (by rw [e]; exact hlt) hgt
        rw [hp] at this
        cases this
      | cons e es =>
        rw [hp] at h1 h2 h3
        obtain ⟨H0, hH0, e0, g0, hg0, em0, hp0, hq0⟩ := h1 e (by simp)
        refine ⟨⟨H0, hH0, e0, g0, hg0, hp0, by rw [em0]; exact hq0⟩, ?_⟩
        intro h' hi
        obtain ⟨H, hH, e', g, hg, hlt, hgt⟩ := hi
        rcases List.mem_cons.1 (h2 H hH g hg (by rw [e']; exact hlt) hgt) with h | h
        · left
          rw [← e', ← h]
        · right
          have := (List.pairwise_cons.1 h3).1 _ h
          exact ⟨H, hH, e', g, hg, by rw [← e']; exact this, by simp only at hp0 ⊢; omega⟩
    · rw [beq_false_of_ne hbc]
      have hb : b ∈ r := by
        rcases List.mem_cons.1 hb with rfl | hb
        · exact absurd rfl hbc
        · exact hb
      refine ih (d ++ [c]) _ (by simp [hd]) ?_ b hb
      simp only [List.length_append, List.length_singleton, ← hpc]
      have hmem : ∀ e ∈ popped c.id st, ∃ H ∈ F.order, H.id = e.1 ∧ ∃ g, H.merge = some g ∧ g.block = e.2 ∧
          pos F e.1 < pos F c.id + 1 ∧ pos F c.id + 1 ≤ pos F e.2 := by
        intro e he
        obtain ⟨H, hH, e1, g, hg, em, hp, hq⟩ := h1 e he
        exact ⟨H, hH, e1, g, hg, em, by omega, by omega⟩
      cases hg : c.merge with
      | none =>
        refine ⟨hmem, ?_, h3⟩
        intro H hH g hg' hp hq
        have : pos F H.id ≠ pos F c.id := by
          intro e
          have e := pos_inj ⟨H, hH, rfl⟩ e
          have : some H = some c := by rw [← block_eq hv hH, ← block_eq hv hc, e]
          cases this
          rw [hg] at hg'
          cases hg'
        exact h2 H hH g hg' (by omega) (by omega)
      | some g0 =>
        have hma := hs.merge_after c hc g0 hg
        refine ⟨?_, ?_, ?_⟩
        · intro e he
          rcases List.mem_cons.1 he with rfl | he
          · exact ⟨c, hc, rfl, g0, hg, rfl, by simp, by simp only; omega⟩
          · exact hmem e he
        · intro H hH g hg' hp hq
          by_cases e : pos F H.id = pos F c.id
          · have e := pos_inj ⟨H, hH, rfl⟩ e
            have : some H = some c := by rw [← block_eq hv hH, ← block_eq hv hc, e]
            cases this
            rw [hg] at hg'
            cases hg'
            simp
          · exact List.mem_cons_of_mem _ (h2 H hH g hg' (by omega) (by omega))
        · refine List.pairwise_cons.2 ⟨?_, h3⟩
          intro e he
          obtain ⟨_, _, _, _, _, _, hp, _⟩ := h1 e he
          exact hp

include hv hs in
theorem up_innermost {b : Block} (hb : b ∈ F.order) : Innermost F b.id (F.up b.id) := by
  obtain ⟨x, hx, hi⟩ := analyse_spec hv hs F.order [] [] rfl
    ⟨by simp, by intro H hH g hg h; simp at h, by simp⟩ b hb
  simp only [Func.up, hx]
  exact hi

theorem inside_block {h b : Id} (hi : Inside F h b) : ∃ H ∈ F.order, H.id = h ∧ H.merge ≠ none := by
  obtain ⟨H, hH, e, g, hg, _⟩ := hi
  exact ⟨H, hH, e, by simp [hg]⟩

theorem inside_trans (hv : Valid F) (hs : Structured F) {a b c : Id} (h1 : Inside F a b) (h2 : Inside F b c) :
    Inside F a c := by
  obtain ⟨B, hB, eb, gb, hgb, hp, hq⟩ := h2
  obtain ⟨A, hA, ea, ga, hga, hp', hq'⟩ := h1
  have := hs.nested A hA ga hga B hB gb hgb ⟨A, hA, rfl, ga, hga, by rw [ea, eb]; exact hp', by rw [eb]; exact hq'⟩
  exact ⟨A, hA, ea, ga, hga, by omega, by omega⟩

/-- The merge block of an inner construct is in the outer one. -/
theorem inside_merge (hv : Valid F) (hs : Structured F) {a : Id} {B : Block} {g : Merge} (hB : B ∈ F.order)
    (hg : B.merge = some g) (h : Inside F a B.id) : Inside F a g.block := by
  obtain ⟨A, hA, ea, ga, hga, hp', hq'⟩ := h
  have := hs.nested A hA ga hga B hB g hg ⟨A, hA, rfl, ga, hga, by rw [ea]; exact hp', hq'⟩
  have := hs.merge_after B hB g hg
  exact ⟨A, hA, ea, ga, hga, by omega, this |> fun _ => by assumption⟩

/-- Following `ContainingConstruct` finds every construct around a block. -/
theorem inConstruct_of (hv : Valid F) (hs : Structured F) {h : Id} : ∀ (n : Nat) (b : Block), b ∈ F.order →
    pos F b.id < n → (h = b.id ∨ Inside F h b.id) → F.inConstruct h n b.id = true := by
  intro n
  induction n with
  | zero => intro b _ h; omega
  | succ n ih =>
    intro b hb hn hi
    rw [Func.inConstruct]
    rcases hi with rfl | hi
    · simp
    · have hu := up_innermost hv hs hb
      cases he : F.up b.id with
      | none => rw [he] at hu; exact absurd hi (hu h)
      | some c =>
        rw [he] at hu
        obtain ⟨K, hK, ek, _⟩ := inside_block hu.1
        have := inside_lt hu.1
        rw [← ek] at this
        have := ih K hK (by omega) (by rw [ek]; exact hu.2 h hi)
        rw [ek] at this
        simp [this]

end

end Verif.Adce
