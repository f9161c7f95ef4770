import Verif.VectorDce.Sim
set_option linter.unusedSimpArgs false
set_option linter.unusedVariables false
set_option linter.unusedSectionVars false
/-!
# What is bypassed is not used any more
-/
namespace Verif.VectorDce
open Verif.SsaExec Verif.VectorDce.Spec
variable {I B X M : Type} [DecidableEq I] {f : Func I B} {live : I → Option Nat} {G : I → Prop}

theorem replaceAll_ne {sub : I → Operand I} {i j : I} {t} (h : ∀ d, sub d ≠ .id i) (ht : t ≠ .id i) :
    ∀ d, replaceAll sub j t d ≠ .id i := by
  intro d
  simp only [replaceAll]
  split
  · exact ht
  · exact h d

theorem one_ne {s : Rewrite I} {i j} (h : ∀ d, s.sub d ≠ .id i) : ∀ d, (f.rewriteOne live s j).sub d ≠ .id i := by
  unfold Func.rewriteOne
  split
  · split
    · exact h
    · exact replaceAll_ne h (by simp)
    · split
      · unfold Func.rewriteInsert
        split
        · split
          · exact replaceAll_ne h (h _)
          · split
            · exact replaceAll_ne h (h _)
            · split <;> exact h
        · exact h
      · exact h
  · exact h

/-- An id that dominates itself along a chain. -/
theorem chain_dom (hT : Typed f) (hv : Valid f.code G) {e i u} (hch : Chain f live e i) (he : G e ∨ Dom f.code e u) :
    G i ∨ Dom f.code i u := by
  induction hch with
  | refl => exact he
  | cons hf _ ih =>
    apply ih
    obtain ⟨b, hb⟩ := hf.body hT
    have hn := hv.inside b _ (by simp only [Code.all, List.mem_append]; exact .inr hb)
    rcases hv.ops b _ hb _ (by simp only [Func.code, List.mem_map]; exact ⟨_, hf.mem_ops, rfl⟩) with h | h
    · exact .inl h
    · exact .inr (h.1.trans (he.resolve_left hn))

theorem no_cycle (hT : Typed f) (hv : Valid f.code G) {i e h} (hf : Fwd f live i e) (hch : Chain f live e i)
    (ht : Trail f.code (i :: h)) : False := by
  obtain ⟨b, hb⟩ := hf.body hT
  have hn := hv.inside b i (by simp only [Code.all, List.mem_append]; exact .inr hb)
  have : G e ∨ Dom f.code e i := by
    rcases hv.ops b _ hb _ (by simp only [Func.code, List.mem_map]; exact ⟨_, hf.mem_ops, rfl⟩) with h | h
    · exact .inl h
    · exact .inr h.1
  rcases chain_dom hT hv hch this with h | h
  · exact hn h
  · exact dom_irrefl ht h

theorem bypassed_ne (hT : Typed f) (hv : Valid f.code G) {i e h} (hf : Fwd f live i e) (ht : Trail f.code (i :: h)) :
    ∀ d, (f.rewrite live).sub d ≠ .id i := by
  have hone : ∀ s, RInv f live s → ∀ d, (f.rewriteOne live s i).sub d ≠ .id i := by
    intro s hs
    have hsub : ∀ e', Fwd f live i e' → s.sub e' ≠ .id i := fun e' hf' he =>
      no_cycle hT hv hf' (hs.id _ _ he) ht
    have self : ∀ t, t ≠ .id i → ∀ d, replaceAll s.sub i t d ≠ .id i := by
      intro t ht d
      simp only [replaceAll]
      split
      · exact ht
      · assumption
    obtain ⟨idx, o, c, b, hk, ho, hb, hw⟩ := hf.why
    unfold Func.rewriteOne
    simp only [hf.comb, if_true]
    rw [hb]
    cases b with
    | zero => exact self _ (by simp)
    | succ b =>
      simp only [hk]
      unfold Func.rewriteInsert
      simp only [ho]
      rcases hw with ⟨rfl, rfl⟩ | ⟨p, r, rfl, rfl, hp⟩
      · exact self _ (hsub _ hf)
      · simp only [hp, if_true]
        exact self _ (hsub _ hf)
  have : ∀ (is : List I) (s : Rewrite I), (∀ j ∈ is, j ∈ f.insts) → RInv f live s →
      (i ∈ is ∨ ∀ d, s.sub d ≠ .id i) → ∀ d, (is.foldl (f.rewriteOne live) s).sub d ≠ .id i := by
    intro is
    induction is with
    | nil => intro s _ _ h; simpa using h
    | cons j is ih =>
      intro s hj hs h
      refine ih _ (fun x hx => hj x (by simp [hx])) (hs.one (hj j (by simp))) ?_
      by_cases hij : i = j
      · subst hij
        exact .inr (hone s hs)
      · rcases h with h | h
        · exact .inl (by simpa [hij] using h)
        · exact .inr (one_ne h)
  refine this f.insts _ (fun _ h => h) ⟨?_, ?_, by simp, by simp⟩ (.inl hf.inst)
  · intro d e h
    simp at h
    subst h
    exact .refl _
  · intro d h
    simp at h

/-- An id that nothing stands for is not an operand. -/
theorem unused {s : Rewrite I} {i} (h : ∀ d, s.sub d ≠ .id i) (j : I) :
    .id i ∉ (f.after s).ops j ∧ ∀ b, (.id i, b) ∉ (f.after s).args j := by
  constructor
  · simp only [Func.after]
    have : .id i ∉ (f.ops j).map s.sub := by
      simp only [List.mem_map, not_exists, not_and]
      exact fun d _ => h d
    split
    · intro hm
      rcases List.mem_or_eq_of_mem_set hm with hm | hm
      · exact this hm
      · cases hm
    · exact this
  · intro b hm
    simp only [Func.after, List.mem_map] at hm
    obtain ⟨x, -, he⟩ := hm
    simp only [Prod.mk.injEq] at he
    exact h _ he.1

end Verif.VectorDce
