import Verif.Flatten.Lemmas
/-!
# C67: flattening decoration groups
-/
namespace Verif.Flatten
open Spec

theorem run_done {n : Nat} {m m' : Mod} (h : run n m = .done m') : flatten m.anns m.anns = some m'.anns ∧
    ((groupIds m.anns = [] ∧ m'.names = m.names) ∨
      (groupIds m.anns ≠ [] ∧ names (groupIds m.anns) n [] m.names = some m'.names)) := by
  unfold run at h
  split at h
  · cases h
  · rename_i as hf
    split at h
    · rename_i hg
      cases h
      exact ⟨hf, .inl ⟨hg, rfl⟩⟩
    · rename_i hg
      split at h
      · rename_i ns hn
        cases h
        exact ⟨hf, .inr ⟨hg, hn⟩⟩
      · cases h

/-- Every id but the groups themselves carries exactly the decorations it carried before. -/
theorem decorations_kept (m m' : Mod) (n : Nat) (hv : Valid m.anns) (h : run n m = .done m') (t : Id)
    (ht : Ann.group t ∉ m.anns) (d : List Word) : Carries m'.anns t d ↔ Carries m.anns t d := by
  obtain ⟨y, hy, hm⟩ := anns_spec hv
  have := (run_done h).1
  rw [hy] at this
  cases this
  constructor
  · rintro (h | ⟨h1, h2, h3⟩)
    · rcases (hm _).1 h with ⟨h, _⟩ | ⟨g, d', hgd, ⟨t', ts, h1, h2, e⟩ | ⟨_, _, _, _, _, e⟩⟩
      · exact .direct h
      · cases e; exact .group hgd h1 h2
      · cases e
    · rcases (hm _).1 h2 with ⟨_, _, h, _⟩ | ⟨_, _, _, ⟨_, _, _, _, e⟩ | ⟨_, _, _, _, _, e⟩⟩
      · exact absurd rfl (h _ _)
      · cases e
      · cases e
  · rintro (h | ⟨h1, h2, h3⟩)
    · refine .direct ((hm _).2 (.inl ⟨h, ?_, by simp, by simp⟩))
      rintro g ⟨rfl, hg⟩
      exact ht hg
    · exact .direct ((hm _).2 (.inr ⟨_, d, h1, .inl ⟨t, _, h2, h3, rfl⟩⟩))

/-- So does every member of a structure type. -/
theorem member_decorations_kept (m m' : Mod) (n : Nat) (hv : Valid m.anns) (h : run n m = .done m') (t : Id)
    (k : Word) (d : List Word) : MemberCarries m'.anns t k d ↔ MemberCarries m.anns t k d := by
  obtain ⟨y, hy, hm⟩ := anns_spec hv
  have := (run_done h).1
  rw [hy] at this
  cases this
  constructor
  · rintro (h | ⟨h1, h2, h3⟩)
    · rcases (hm _).1 h with ⟨h, _⟩ | ⟨g, d', hgd, ⟨_, _, _, _, e⟩ | ⟨t', k', ws, h1, h2, e⟩⟩
      · exact .direct h
      · cases e
      · cases e; exact .group hgd h1 h2
    · rcases (hm _).1 h2 with ⟨_, _, _, h⟩ | ⟨_, _, _, ⟨_, _, _, _, e⟩ | ⟨_, _, _, _, _, e⟩⟩
      · exact absurd rfl (h _ _)
      · cases e
      · cases e
  · rintro (h | ⟨h1, h2, h3⟩)
    · refine .direct ((hm _).2 (.inl ⟨h, ?_, by simp, by simp⟩))
      rintro g ⟨rfl, hg⟩
      exact hv.member_target _ _ _ h hg
    · exact .direct ((hm _).2 (.inr ⟨_, d, h1, .inr ⟨t, k, _, h2, h3, rfl⟩⟩))

/-- Decorations by other instructions are untouched. -/
theorem other_decorations_kept (m m' : Mod) (n : Nat) (hv : Valid m.anns) (h : run n m = .done m') (op : Nat)
    (t : Id) (d : List Word) : Ann.other op t d ∈ m'.anns ↔ Ann.other op t d ∈ m.anns := by
  obtain ⟨y, hy, hm⟩ := anns_spec hv
  have := (run_done h).1
  rw [hy] at this
  cases this
  rw [hm]
  constructor
  · rintro (⟨h, _⟩ | ⟨_, _, _, ⟨_, _, _, _, e⟩ | ⟨_, _, _, _, _, e⟩⟩)
    · exact h
    · cases e
    · cases e
  · intro h
    refine .inl ⟨h, ?_, by simp, by simp⟩
    rintro g ⟨rfl, hg⟩
    exact hv.other_target _ _ _ h hg

/-- No group instruction is left, and nothing names an id that was a group. -/
theorem groups_gone (m m' : Mod) (n : Nat) (hv : Valid m.anns) (h : run n m = .done m') :
    (∀ g, Ann.group g ∉ m'.anns) ∧ (∀ g ts, Ann.groupDecorate g ts ∉ m'.anns) ∧
    (∀ g ws, Ann.groupMember g ws ∉ m'.anns) ∧
    ∀ g, Ann.group g ∈ m.anns → (∀ a ∈ m'.anns, ¬ Mentions g a) ∧ ∀ s, Name.name g s ∉ m'.names := by
  obtain ⟨y, hy, hm⟩ := anns_spec hv
  obtain ⟨h1, h2⟩ := run_done h
  rw [hy] at h1
  cases h1
  refine ⟨?_, ?_, ?_, ?_⟩
  · intro g hg
    rcases (hm _).1 hg with ⟨h, h', _⟩ | ⟨_, _, _, ⟨_, _, _, _, e⟩ | ⟨_, _, _, _, _, e⟩⟩
    · exact h' g ⟨rfl, h⟩
    · cases e
    · cases e
  · intro g ts hg
    rcases (hm _).1 hg with ⟨_, _, h, _⟩ | ⟨_, _, _, ⟨_, _, _, _, e⟩ | ⟨_, _, _, _, _, e⟩⟩
    · exact h _ _ rfl
    · cases e
    · cases e
  · intro g ts hg
    rcases (hm _).1 hg with ⟨_, _, _, h⟩ | ⟨_, _, _, ⟨_, _, _, _, e⟩ | ⟨_, _, _, _, _, e⟩⟩
    · exact h _ _ rfl
    · cases e
    · cases e
  · intro g hg
    constructor
    · intro a ha hmn
      rcases (hm _).1 ha with ⟨_, h, _⟩ | ⟨g', d, _, ⟨t, ts, h1, h2, rfl⟩ | ⟨t, k, ws, h1, h2, rfl⟩⟩
      · exact h g ⟨hmn, hg⟩
      · cases hmn; exact hv.flat _ _ _ h1 h2 hg
      · cases hmn; exact hv.member_flat _ _ _ _ h1 h2 hg
    · intro s hs
      rcases h2 with ⟨h2, _⟩ | ⟨_, h2⟩
      · rw [← mem_groupIds, h2] at hg; cases hg
      · by_cases hall : ∃ x ∈ m.names, isName x = false
        · rw [names_hang _ _ _ hall] at h2; cases h2
        · by_cases hn : m.names.length ≤ n
          · rw [names_ok _ _ _ (by
              intro x hx
              cases hb : isName x with
              | true => rfl
              | false => exact absurd ⟨x, hx, hb⟩ hall) hn] at h2
            simp only [List.nil_append, Option.some.injEq] at h2
            rw [← h2] at hs
            have := (List.mem_filter.1 hs).2
            simp only [decide_eq_true_eq] at this
            exact this (mem_groupIds.2 hg)
          · exfalso
            have hshort : ∀ (r : List Name) (n : Nat) (d : List Name), (∀ x ∈ r, isName x = true) → n < r.length →
                names (groupIds m.anns) n d r = none := by
              intro r
              induction r with
              | nil => intro n d _ h; simp at h
              | cons x r ih =>
                intro n d hx hlen
                cases n with
                | zero => cases x <;> rfl
                | succ n =>
                  simp only [List.length_cons] at hlen
                  cases x with
                  | member => simpa [isName] using hx _ List.mem_cons_self
                  | name t s =>
                    rw [names]
                    split <;> exact ih _ _ (fun y hy => hx y (List.mem_cons_of_mem _ hy)) (by omega)
            rw [hshort _ _ _ (by
              intro x hx
              cases hb : isName x with
              | true => rfl
              | false => exact absurd ⟨x, hx, hb⟩ hall) (by omega)] at h2
            cases h2

/-- If the module has no group, or no `OpMemberName`, the pass comes to an end, and the names that are left
are those of other ids, in the same order. Missing from the full property: modules with both
(`member_name_hangs`). -/
theorem completes_partial (m : Mod) (hv : Valid m.anns)
    (hn : (∀ g, Ann.group g ∉ m.anns) ∨ ∀ t k s, Name.member t k s ∉ m.names) :
    ∃ n m', run n m = .done m' ∧ m'.names.Sublist m.names ∧
      ∀ x ∈ m.names, x ∈ m'.names ∨ ∃ t s, x = .name t s ∧ Ann.group t ∈ m.anns := by
  obtain ⟨y, hy, hm⟩ := anns_spec hv
  by_cases hg : groupIds m.anns = []
  · exact ⟨0, ⟨y, m.names⟩, by simp [run, hy, hg], List.Sublist.refl _, fun x hx => .inl hx⟩
  · have hall : ∀ x ∈ m.names, isName x = true := by
      rcases hn with hn | hn
      · exfalso
        apply hg
        rw [List.eq_nil_iff_forall_not_mem]
        intro g h
        exact hn g (mem_groupIds.1 h)
      · intro x hx
        cases x with
        | name => rfl
        | member t k s => exact absurd hx (hn t k s)
    refine ⟨m.names.length, ⟨y, _⟩, by rw [run, hy]; simp only [hg, if_false]; rw [names_ok _ _ _ hall (Nat.le_refl _)], ?_, ?_⟩
    · simp only [List.nil_append]
      exact List.filter_sublist
    · intro x hx
      simp only [List.nil_append, List.mem_filter]
      cases x with
      | member t k s => exact .inl ⟨hx, rfl⟩
      | name t s =>
        by_cases ht : t ∈ groupIds m.anns
        · exact .inr ⟨t, s, rfl, mem_groupIds.1 ht⟩
        · exact .inl ⟨hx, by simpa using ht⟩

/-- The pass never runs into an assertion or reads out of bounds. -/
theorem never_undefined (m : Mod) (hv : Valid m.anns) (n : Nat) : run n m ≠ .undefined := by
  obtain ⟨y, hy, _⟩ := anns_spec hv
  rw [run, hy]
  simp only
  split
  · simp
  · split <;> simp

/-- On any module with a decoration group and an `OpMemberName` the pass never comes to an end. -/
theorem member_name_hangs (m : Mod) (hv : Valid m.anns) (g : Id) (hg : Ann.group g ∈ m.anns) (t : Id) (k : Word)
    (s : String) (hs : Name.member t k s ∈ m.names) (n : Nat) : run n m = .running := by
  obtain ⟨y, hy, _⟩ := anns_spec hv
  have hne : groupIds m.anns ≠ [] := by
    intro h
    have := mem_groupIds.2 hg
    rw [h] at this
    cases this
  rw [run, hy]
  simp only [hne, if_false]
  rw [names_hang _ _ _ ⟨_, hs, rfl⟩]

/-- Annotations that have nothing to do with groups stay in order. -/
theorem order_kept (m m' : Mod) (n : Nat) (h : run n m = .done m') (l : List Ann)
    (hl : l.Sublist m.anns) (hu : ∀ a ∈ l, (∃ t k d, a = .member t k d) ∨ (∃ op t d, a = .other op t d) ∨
      ∃ t d, a = .decorate t d ∧ Ann.group t ∉ m.anns ∧ (∀ ts, Ann.groupDecorate t ts ∉ m.anns) ∧
        ∀ ws, Ann.groupMember t ws ∉ m.anns) : l.Sublist m'.anns := by
  have hf := (run_done h).1
  have hrep : ∀ a ∈ l, replace m.anns a = some [a] := by
    intro a ha
    rcases hu a ha with ⟨t, k, d, rfl⟩ | ⟨op, t, d, rfl⟩ | ⟨t, d, rfl, h1, h2, h3⟩
    · rfl
    · rfl
    · have e1 : normalUses m.anns t = [] := by
        rw [List.eq_nil_iff_forall_not_mem]
        intro x hx
        obtain ⟨ts, h, _⟩ := mem_normalUses.1 hx
        exact h2 ts h
      have e2 : memberUses m.anns t = [] := by
        rw [List.eq_nil_iff_forall_not_mem]
        intro x hx
        simp only [memberUses, List.mem_flatMap] at hx
        obtain ⟨a, ha', h⟩ := hx
        unfold memberWords at h
        split at h
        · split at h
          · rename_i e; rw [e] at ha'; exact h3 _ ha'
          · cases h
        · cases h
      have e3 : t ∉ groupIds m.anns := fun h => h1 (mem_groupIds.1 h)
      simp [replace, e1, e2, pairs, e3]
  have key : ∀ (r : List Ann) (y : List Ann) (l : List Ann), flatten m.anns r = some y → l.Sublist r →
      (∀ a ∈ l, replace m.anns a = some [a]) → l.Sublist y := by
    intro r
    induction r with
    | nil =>
      intro y l hy hl _
      cases hl
      exact List.nil_sublist _
    | cons a r ih =>
      intro y l hy hl hr
      simp only [flatten] at hy
      cases hx : replace m.anns a with
      | none => rw [hx] at hy; cases hy
      | some x =>
        cases hz : flatten m.anns r with
        | none => rw [hx, hz] at hy; cases hy
        | some z =>
          rw [hx, hz] at hy
          cases hy
          cases hl with
          | cons _ hl => exact (ih z l hz hl hr).trans (List.sublist_append_right _ _)
          | @cons_cons l' _ _ hl =>
            have := hr a List.mem_cons_self
            rw [hx] at this
            cases this
            exact List.Sublist.cons_cons _ (ih z l' hz hl (fun b hb => hr b (List.mem_cons_of_mem _ hb)))
  exact key _ _ _ hf hl hrep

/-! ## A module -/

/-- The group `%1` decorates `%2` and `%3` and the second member of `%4`; `%5` is decorated directly. -/
def sample : List Ann := [.decorate 1 [7], .group 1, .decorate 5 [9], .groupDecorate 1 [2, 3], .groupMember 1 [4, 1],
  .decorate 1 [8], .member 4 0 [6], .other 332 5 [1]]

theorem sample_valid : Valid sample := by
  refine ⟨?_, ?_, ?_, ?_, ?_, ?_, ?_⟩
  · intro g ts h; simp [sample] at h ⊢; exact h.1
  · intro g ws h; simp [sample] at h ⊢; exact h.1
  · intro g ws h; simp [sample] at h; simp [h.2]
  · intro g ts t h ht; simp [sample] at h ⊢
    rw [h.2] at ht
    simp at ht
    rcases ht with rfl | rfl <;> decide
  · intro g ws t m h ht; simp [sample] at h ⊢
    rw [h.2] at ht
    cases ht with
    | here => simp
    | later h => cases h
  · intro t m d h; simp [sample] at h ⊢; rw [h.1]; decide
  · intro op t d h; simp [sample] at h ⊢; rw [h.2.1]; decide

example : run 5 ⟨sample, [.name 1 "g", .name 2 "x"]⟩ = .done ⟨[.decorate 2 [7], .decorate 3 [7], .member 4 1 [7],
    .decorate 5 [9], .decorate 2 [8], .decorate 3 [8], .member 4 1 [8], .member 4 0 [6], .other 332 5 [1]],
    [.name 2 "x"]⟩ := by decide

/-- The same module with the name of a member. -/
example : ∀ n, run n ⟨sample, [.name 1 "g", .member 4 0 "x"]⟩ = .running :=
  member_name_hangs _ sample_valid 1 (by simp [sample]) 4 0 "x" (by simp)

example : [Ann.decorate 5 [9], .member 4 0 [6]].Sublist sample := by decide

end Verif.Flatten
