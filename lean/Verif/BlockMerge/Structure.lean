import Verif.BlockMerge.JoinRuns

/-!
# Lemmas: structure of merged blocks (C73)
-/

set_option linter.unusedSimpArgs false
set_option linter.unusedVariables false

namespace Verif.BlockMerge.Spec
open Verif.IfConv Verif.CodeSink Verif.CodeSink.Spec
open Verif.IfConv.Spec hiding Valid Right

variable {V M : Type} {S : Sem V M} {fn : Fn} {b s : Lab}

theorem isMerge_of {x : Lab} : isMerge fn x = true ↔ MergeBlock fn x := by
  unfold isMerge MergeBlock
  rw [List.any_eq_true]
  constructor
  · rintro ⟨h, h1, h2⟩
    cases hm : (fn.block h).merge with
    | none => rw [hm] at h2; cases h2
    | some M => rw [hm] at h2; exact ⟨h, M, h1, hm, eq_of_beq h2⟩
  · rintro ⟨h, M, h1, h2, h3⟩
    exact ⟨h, h1, by rw [h2]; simp [h3]⟩

theorem isContinue_of {x : Lab} : isContinue fn x = true ↔ ContinueTarget fn x := by
  unfold isContinue ContinueTarget
  rw [List.any_eq_true]
  constructor
  · rintro ⟨h, h1, h2⟩
    cases hm : (fn.block h).merge with
    | none => rw [hm] at h2; cases h2
    | some M =>
      rw [hm] at h2
      cases M with
      | selection _ _ => cases h2
      | loop m c => exact ⟨h, m, h1, by rw [hm, eq_of_beq h2]⟩
  · rintro ⟨h, m, h1, h2⟩
    exact ⟨h, h1, by rw [h2]; simp⟩

theorem switchOk_of {A : Info} : switchOk fn A b = true ↔ ¬ CaseOf fn A.switch b := by
  unfold switchOk CaseOf
  cases A.switch b with
  | none => simp
  | some h =>
    simp only [List.all_eq_true, Bool.not_eq_true', Bool.and_eq_false_iff, beq_eq_false_iff_ne,
      bne_eq_false_iff_eq, Option.some.injEq]
    constructor
    · rintro k ⟨h', rfl, h1, h2⟩
      rcases k b h1 with k | k
      · exact k rfl
      · cases hm : (fn.block h).merge with
        | none => rw [hm] at k; cases k
        | some M => rw [hm] at k; exact h2 M hm (Option.some.inj k).symm
    · intro k t ht
      by_cases e : t = b
      · refine .inr ?_
        subst e
        refine Classical.byContradiction fun hn => k ⟨h, rfl, ht, fun M hM e => hn ?_⟩
        rw [hM, ← e]; rfl
      · exact .inl e

theorem mergeTarget_ren (M : Merge) : mergeTarget (renMerge s b M) = ren s b (mergeTarget M) := by
  cases M <;> rfl

/-- Where a merge instruction comes from. -/
theorem merge_from (hv : Valid S fn) (g : Only fn b s) {h' : Lab} {M' : Merge}
    (hl : h' ∈ (mergeBlocks fn b s).labels) (hm : ((mergeBlocks fn b s).block h').merge = some M') :
    ∃ h M, h ∈ fn.labels ∧ (fn.block h).merge = some M ∧ M' = renMerge s b M ∧ ren s b h = h' ∧
      (h = b → mergeTarget M ≠ s) := by
  have t := merge_two hv g
  have f := merge_frame hv g
  obtain ⟨hl1, hs⟩ := (merge_labels hv g).1 hl
  have hm : ((join (dropPhis fn s) b s).block h').merge = some M' := hm
  by_cases hb : h' = b
  · subst hb
    have hk : (keptMerge (dropPhis fn s) h' s).map (renMerge s h') = some M' := by
      rw [← hm]; simp only [join, if_neg hs, if_true, renBlock]
    obtain ⟨M, k1, rfl⟩ := Option.map_eq_some_iff.1 hk
    unfold keptMerge at k1
    have key : (fn.block s).merge = some M → ∃ h M0, h ∈ fn.labels ∧ (fn.block h).merge = some M0 ∧
        renMerge s h' M = renMerge s h' M0 ∧ ren s h' h = h' ∧ (h = h' → mergeTarget M0 ≠ s) :=
      fun hM => ⟨s, M, g.listed_s hv, hM, rfl, ren_self, fun e => absurd e.symm hs⟩
    split at k1
    · rename_i M1 hM1
      split at k1
      · exact key (by rw [← f.merge]; exact k1)
      · rename_i hne
        cases k1
        exact ⟨h', M, hl1, by rw [← f.merge]; exact hM1, rfl, ren_ne hs, fun _ => hne⟩
    · exact key (by rw [← f.merge]; exact k1)
  · have hk : ((dropPhis fn s).block h').merge.map (renMerge s b) = some M' := by
      rw [← hm]; simp only [join, if_neg hs, if_neg hb, renBlock]
    obtain ⟨M, k1, rfl⟩ := Option.map_eq_some_iff.1 hk
    exact ⟨h', M, hl1, by rw [← f.merge]; exact k1, rfl, ren_ne hs, fun e => absurd e hb⟩

theorem merge_headers {A} (hv : Valid S fn) (hr : Reachable fn b) (hc : canMerge fn A b = some s) {h : Lab}
    {M : Merge} (hM : (fn.block h).merge = some M) (hn : ¬ (h = b ∧ mergeTarget M = s)) :
    ((mergeBlocks fn b s).block (ren s b h)).merge = some (renMerge s b M) := by
  have g := can_only hv hr hc
  have t := merge_two hv g
  have f := merge_frame hv g
  obtain ⟨h1, h2, h3, h4, h5, h6, h7⟩ := can_of hc
  show ((join (dropPhis fn s) b s).block (ren s b h)).merge = _
  have hb : ((join (dropPhis fn s) b s).block b).merge = (keptMerge (dropPhis fn s) b s).map (renMerge s b) := by
    simp only [join, if_neg t.neq, if_true, renBlock]
  by_cases hs : h = s
  · subst hs
    rw [ren_self, hb]
    unfold keptMerge
    rw [f.merge, f.merge]
    cases hm : (fn.block b).merge with
    | none => simp [hM]
    | some M1 =>
      rcases h6 M1 hm with k | ⟨k, _⟩
      · simp [k, hM]
      · rw [hM] at k; cases k
  · rw [ren_ne hs]
    by_cases e : h = b
    · subst e
      rw [hb]
      unfold keptMerge
      rw [f.merge, hM]
      simp [show mergeTarget M ≠ s from fun k => hn ⟨rfl, k⟩]
    · simp only [join, if_neg hs, if_neg e, renBlock, f.merge, hM]
      rfl

theorem merge_structured {A} (hv : Valid S fn) (hr : Reachable fn b) (hc : canMerge fn A b = some s)
    (hs : Structured fn) : Structured (mergeBlocks fn b s) := by
  have g := can_only hv hr hc
  have t := merge_two hv g
  have f := merge_frame hv g
  obtain ⟨h1, h2, h3, h4, h5, h6, h7⟩ := can_of hc
  constructor
  · intro x x' M M' hx hx' hM hM' he
    obtain ⟨y, N, k1, k2, rfl, rfl, k3⟩ := merge_from hv g hx hM
    obtain ⟨y', N', j1, j2, rfl, rfl, j3⟩ := merge_from hv g hx' hM'
    rw [mergeTarget_ren, mergeTarget_ren] at he
    have both : ∀ {z z' K K'}, z ∈ fn.labels → z' ∈ fn.labels → (fn.block z).merge = some K →
        (fn.block z').merge = some K' → mergeTarget K = s → mergeTarget K' = b → False := by
      intro z z' K K' a1 a2 a3 a4 a5 a6
      exact h3 ⟨isMerge_of.2 ⟨z', K', a2, a4, a6⟩, isMerge_of.2 ⟨z, K, a1, a3, a5⟩⟩
    have : mergeTarget N = mergeTarget N' := by
      unfold ren at he
      by_cases e1 : mergeTarget N = s <;> by_cases e2 : mergeTarget N' = s
      · rw [e1, e2]
      · rw [if_pos e1, if_neg e2] at he
        exact (both k1 j1 k2 j2 e1 he.symm).elim
      · rw [if_neg e1, if_pos e2] at he
        exact (both j1 k1 j2 k2 e2 he).elim
      · rw [if_neg e1, if_neg e2] at he; exact he
    rw [hs.merge_once y y' N N' k1 j1 k2 j2 this]
  · intro x m c hx hM gg o ts e
    obtain ⟨y, N, k1, k2, k3, rfl, k4⟩ := merge_from hv g hx hM
    have hN : ∃ m' c', N = .loop m' c' := by
      cases N with
      | selection _ _ => simp [renMerge] at k3
      | loop m' c' => exact ⟨m', c', rfl⟩
    obtain ⟨m', c', rfl⟩ := hN
    have e : ((join (dropPhis fn s) b s).block (ren s b y)).term = .multi gg o ts := e
    by_cases hy : y = b
    · have h8 := k4 hy
      rw [hy] at k2 e
      rcases h6 _ k2 with h9 | ⟨_, h9⟩
      · exact h8 h9
      · have e' : ((dropPhis fn s).block s).term = .multi gg o ts := by
          rw [← t.term_ren t.neq.symm, ren_self]
          rw [ren_ne t.neq] at e
          exact e
        obtain ⟨g', o', t', e2⟩ := (f.multi s).1 ⟨_, _, _, e'⟩
        exact h9 _ _ _ e2
    · rw [t.term_ren hy] at e
      obtain ⟨g', o', t', e2⟩ := (f.multi y).1 ⟨_, _, _, e⟩
      exact hs.loop_term y m' c' k1 k2 _ _ _ e2

theorem merges_structured {A live} {fn fn' : Fn} (hl : ∀ f b, live f b → Reachable f b) (h : Merges A live fn fn')
    (hv : Valid S fn) (hs : Structured fn) : Structured fn' := by
  induction h with
  | none => exact hs
  | @one fn fn' b s hlive hcan _ ih =>
    exact ih (merge_spec hv (can_only hv (hl _ _ hlive) hcan)).1 (merge_structured hv (hl _ _ hlive) hcan hs)

end Verif.BlockMerge.Spec
