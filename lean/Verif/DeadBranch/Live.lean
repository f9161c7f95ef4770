import Verif.DeadBranch.Spec
import Verif.BlockMerge.PhiRuns

/-!
# Lemmas: live blocks (C74)
-/

set_option linter.unusedSimpArgs false
set_option linter.unusedVariables false
set_option linter.unusedSectionVars false

namespace Verif.DeadBranch.Spec
open Verif.IfConv Verif.CodeSink Verif.CodeSink.Spec
open Verif.IfConv.Spec hiding Valid Right

variable {V M : Type} {S : Sem V M} {fn : Fn} {A : Info}

/-! ### The worklist -/

def weight (fn : Fn) (A : Info) (live : List Lab) : Nat :=
  ((fn.labels.filter (· ∉ live)).map fun b => (next fn A b).length + 1).sum

theorem weight_cons {live : List Lab} {b} (hb : b ∈ fn.labels) (hn : b ∉ live) :
    weight fn A (b :: live) + ((next fn A b).length + 1) ≤ weight fn A live := by
  unfold weight
  generalize fn.labels = L at hb
  induction L with
  | nil => simp at hb
  | cons x L ih =>
    have sub : ((L.filter (· ∉ b :: live)).map fun b => (next fn A b).length + 1).sum ≤
        ((L.filter (· ∉ live)).map fun b => (next fn A b).length + 1).sum := by
      clear ih hb
      induction L with
      | nil => simp
      | cons y L ih =>
        by_cases h1 : y ∈ live
        · have h2 : y ∈ b :: live := List.mem_cons_of_mem _ h1
          rw [List.filter_cons_of_neg (by simp; exact (List.mem_cons.1 h2).resolve_left), List.filter_cons_of_neg (by simpa using h1)]
          exact ih
        · by_cases h2 : y ∈ b :: live
          · rw [List.filter_cons_of_neg (by simp; exact (List.mem_cons.1 h2).resolve_left), List.filter_cons_of_pos (by simpa using h1)]
            simp only [List.map_cons, List.sum_cons]
            omega
          · rw [List.filter_cons_of_pos (by simpa using h2), List.filter_cons_of_pos (by simpa using h1)]
            simp only [List.map_cons, List.sum_cons]
            omega
    by_cases hx : x = b
    · subst hx
      rw [List.filter_cons_of_neg (by simp), List.filter_cons_of_pos (by simpa using hn)]
      simp only [List.map_cons, List.sum_cons]
      omega
    · have hb' : b ∈ L := (List.mem_cons.1 hb).resolve_left (fun e => hx e.symm)
      have := ih hb'
      by_cases h1 : x ∈ live
      · have h2 : x ∈ b :: live := List.mem_cons_of_mem _ h1
        rw [List.filter_cons_of_neg (by simp; exact (List.mem_cons.1 h2).resolve_left), List.filter_cons_of_neg (by simpa using h1)]
        exact this
      · have h2 : x ∉ b :: live := by simp [hx, h1]
        rw [List.filter_cons_of_pos (by simpa using h2), List.filter_cons_of_pos (by simpa using h1)]
        simp only [List.map_cons, List.sum_cons]
        omega

theorem mark_spec (hl : ∀ b, b ∉ fn.labels → next fn A b = []) {P : Lab → Prop}
    (hP : ∀ b, P b → ∀ t ∈ next fn A b, P t) :
    ∀ (n : Nat) (st live : List Lab), st.length + weight fn A live < n →
      (∀ x ∈ live, ∀ y ∈ next fn A x, y ∈ live ∨ y ∈ st) → (∀ x ∈ st, P x) → (∀ x ∈ live, P x) →
      (∀ x ∈ mark fn A n st live, P x) ∧ (∀ x ∈ live, x ∈ mark fn A n st live) ∧
      (∀ x ∈ st, x ∈ mark fn A n st live) ∧
      ∀ x ∈ mark fn A n st live, ∀ y ∈ next fn A x, y ∈ mark fn A n st live
  | 0, _, _, h, _, _, _ => by omega
  | n + 1, [], live, _, hc, _, hp => by
    simp only [mark]
    refine ⟨hp, fun x h => h, fun x h => by simp at h, fun x hx y hy => ?_⟩
    rcases hc x hx y hy with h | h
    · exact h
    · simp at h
  | n + 1, b :: st, live, hw, hc, hs, hp => by
    simp only [mark]
    simp only [List.length_cons] at hw
    split
    · rename_i hb
      obtain ⟨h1, h2, h3, h4⟩ := mark_spec hl hP n st live (by omega) (fun x hx y hy => by
        rcases hc x hx y hy with h | h
        · exact .inl h
        · rcases List.mem_cons.1 h with rfl | h
          · exact .inl hb
          · exact .inr h) (fun x hx => hs x (List.mem_cons_of_mem _ hx)) hp
      refine ⟨h1, h2, fun x hx => ?_, h4⟩
      rcases List.mem_cons.1 hx with rfl | hx
      · exact h2 x hb
      · exact h3 x hx
    · rename_i hb
      have hw' : ((next fn A b).reverse ++ st).length + weight fn A (b :: live) < n := by
        simp only [List.length_append, List.length_reverse]
        by_cases hlb : b ∈ fn.labels
        · have := weight_cons (A := A) hlb hb
          omega
        · have h0 : (next fn A b).length = 0 := by rw [hl b hlb]; rfl
          have : weight fn A (b :: live) = weight fn A live := by
            unfold weight
            congr 2
            refine List.filter_congr fun x hx => ?_
            have : x ≠ b := by rintro rfl; exact hlb hx
            simp [this]
          omega
      obtain ⟨h1, h2, h3, h4⟩ := mark_spec hl hP n ((next fn A b).reverse ++ st) (b :: live) hw'
        (fun x hx y hy => by
          rcases List.mem_cons.1 hx with rfl | hx
          · exact .inr (List.mem_append_left _ (List.mem_reverse.2 hy))
          · rcases hc x hx y hy with h | h
            · exact .inl (List.mem_cons_of_mem _ h)
            · rcases List.mem_cons.1 h with rfl | h
              · exact .inl (by simp)
              · exact .inr (List.mem_append_right _ h))
        (fun x hx => by
          rcases List.mem_append.1 hx with h | h
          · exact hP b (hs b (by simp)) x (List.mem_reverse.1 h)
          · exact hs x (List.mem_cons_of_mem _ h))
        (fun x hx => by
          rcases List.mem_cons.1 hx with rfl | hx
          · exact hs x (by simp)
          · exact hp x hx)
      refine ⟨h1, fun x hx => h2 x (List.mem_cons_of_mem _ hx), fun x hx => ?_, h4⟩
      rcases List.mem_cons.1 hx with rfl | hx
      · exact h2 x (by simp)
      · exact h3 x (List.mem_append_right _ hx)

/-! ### Targets -/

theorem pick_mem (n : Nat) (d : Lab) : ∀ cs : List (Nat × Lab), pick n d cs = d ∨ pick n d cs ∈ cs.map (·.2)
  | [] => .inl rfl
  | (k, t) :: r => by
    simp only [pick]
    split
    · exact .inr (by simp)
    · rcases pick_mem n d r with h | h
      · exact .inl h
      · exact .inr (by rw [List.map_cons]; exact List.mem_cons_of_mem _ h)

theorem pick_lookup (n : Nat) (d : Lab) : ∀ cs : List (Nat × Lab), pick n d cs = (cs.lookup n).getD d
  | [] => rfl
  | (k, t) :: r => by
    simp only [pick, List.lookup]
    by_cases h : k = n
    · subst h; simp
    · rw [if_neg h, beq_eq_false_iff_ne.2 (Ne.symm h)]
      exact pick_lookup n d r

theorem liveLab_succ {b t} (h : liveLab fn A b = some t) : t ∈ fn.succs b := by
  unfold liveLab at h
  unfold Fn.succs
  split at h
  · cases h
  · rename_i c t' f' e
    rw [e]
    obtain ⟨k, _, rfl⟩ := Option.map_eq_some_iff.1 h
    simp only [Term.succs]
    split <;> simp
  · rename_i g ops ts e
    rw [e]
    split at h
    · rename_i ls x d cs _
      obtain ⟨n, _, rfl⟩ := Option.map_eq_some_iff.1 h
      simp only [Term.succs]
      rcases pick_mem n d (ls.zip cs) with h | h
      · rw [h]; simp
      · refine List.mem_cons_of_mem _ ?_
        obtain ⟨y, h1, h2⟩ := List.mem_map.1 h
        rw [← h2]
        exact (List.of_mem_zip h1).2
    · cases h

theorem target_succ {b t} (h : target fn A b = some t) : t ∈ fn.succs b := by
  unfold target at h
  split at h
  · cases h
  · exact liveLab_succ h

theorem next_succ {b t} (h : t ∈ next fn A b) : t ∈ fn.succs b := by
  unfold next at h
  split at h
  · rename_i t' e
    simp at h
    subst h
    exact target_succ e
  · exact h

theorem newTerm_succs (b : Lab) : (newTerm fn A b).succs = next fn A b := by
  unfold newTerm next
  cases target fn A b with
  | none => rfl
  | some t =>
    simp only
    split
    · split <;> rfl
    · rfl

theorem simp_succs (b : Lab) : (simplified fn A).succs b = if b ∈ live fn A then next fn A b else fn.succs b := by
  simp only [Fn.succs, simplified]
  split
  · exact newTerm_succs b
  · rfl

/-- Live blocks are those reachable with the new terminators. -/
theorem live_iff (hl : ∀ b, fn.succs b ≠ [] → b ∈ fn.labels) :
    fn.entry ∈ live fn A ∧ (∀ x ∈ live fn A, ∀ y ∈ next fn A x, y ∈ live fn A) ∧
    (∀ x ∈ live fn A, Reachable (simplified fn A) x) := by
  have hn : ∀ b, b ∉ fn.labels → next fn A b = [] := by
    intro b hb
    have : fn.succs b = [] := Classical.byContradiction fun h => hb (hl b h)
    refine List.eq_nil_iff_forall_not_mem.2 fun t ht => ?_
    have := next_succ ht
    simp_all
  have hw : [fn.entry].length + weight fn A [] < rounds fn A + 1 := by
    have : fn.labels.filter (fun x => decide (x ∉ ([] : List Lab))) = fn.labels := List.filter_eq_self.2 (by simp)
    simp only [rounds, weight, this, List.length_singleton]
    omega
  have key : ∀ {P : Lab → Prop}, (∀ b, P b → ∀ t ∈ next fn A b, P t) → P fn.entry →
      (∀ x ∈ live fn A, P x) ∧ fn.entry ∈ live fn A ∧ ∀ x ∈ live fn A, ∀ y ∈ next fn A x, y ∈ live fn A := by
    intro P hP h0
    have hr : ∃ k, rounds fn A = k + 1 ∧ ([] : List Lab).length + weight fn A [] ≤ k := by
      refine ⟨(fn.labels.map fun b => (next fn A b).length + 1).sum, by simp [rounds, Nat.add_comm], ?_⟩
      have : fn.labels.filter (fun x => decide (x ∉ ([] : List Lab))) = fn.labels := List.filter_eq_self.2 (by simp)
      simp only [weight, this, List.length_nil]
      omega
    unfold live
    by_cases hlab : fn.entry ∈ fn.labels
    · obtain ⟨k, hk, hle⟩ := hr
      rw [hk]
      simp only [mark, List.not_mem_nil, if_false]
      have := weight_cons (A := A) (live := []) hlab (by simp)
      obtain ⟨h1, h2, h3, h4⟩ := mark_spec hn hP k ((next fn A fn.entry).reverse ++ []) [fn.entry] (by
        simp only [List.length_append, List.length_reverse, List.length_nil] at *
        omega) (by
          intro x hx y hy
          simp at hx
          subst hx
          exact .inr (by simpa using hy)) (by
          intro x hx
          exact hP _ h0 x (by simpa using hx)) (by
          intro x hx; simp at hx; rw [hx]; exact h0)
      exact ⟨h1, h2 _ (by simp), h4⟩
    · obtain ⟨k, hk, hle⟩ := hr
      rw [hk]
      simp only [mark, List.not_mem_nil, if_false, hn _ hlab, List.reverse_nil, List.nil_append]
      have hm : mark fn A k [] [fn.entry] = [fn.entry] := by cases k <;> rfl
      rw [hm]
      refine ⟨fun x hx => by simp at hx; rw [hx]; exact h0, by simp, fun x hx y hy => ?_⟩
      simp at hx
      rw [hx, hn _ hlab] at hy
      cases hy
  obtain ⟨_, h1, h2⟩ := key (P := fun _ => True) (fun _ _ _ _ => trivial) trivial
  refine ⟨h1, h2, ?_⟩
  have := (key (P := fun x => Reachable (simplified fn A) x ∧ x ∈ live fn A) (fun b hb t ht => by
    obtain ⟨⟨l, hp⟩, hlb⟩ := hb
    exact ⟨⟨_, hp.next (by rw [simp_succs, if_pos hlb]; exact ht)⟩, h2 b hlb t ht⟩) ⟨⟨[], .entry⟩, h1⟩).1
  exact fun x hx => (this x hx).1

end Verif.DeadBranch.Spec
