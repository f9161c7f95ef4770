import Verif.Lcs.Lemmas
/-!
# C38: the sequence matcher returns an optimal common subsequence
-/
set_option linter.unusedVariables false
namespace Verif.Lcs
variable {α : Type}

namespace Spec
/-- A common subsequence of `src` and `dst` under the relation `mt`, written as the
list of paired positions: positions strictly increase on both sides and paired
elements match. -/
def IsCommon (mt : α → α → Bool) (src dst : List α) (ps : List (Nat × Nat)) : Prop :=
  ps.Pairwise (fun p q => p.1 < q.1 ∧ p.2 < q.2) ∧
  ∀ p ∈ ps, ∃ a b, src[p.1]? = some a ∧ dst[p.2]? = some b ∧ mt a b = true
end Spec

theorem isCommon_of_chain (mt : α → α → Bool) (src dst : List α) (i j ps)
    (h : Chain (M mt src dst) src.length dst.length i j ps) :
    Spec.IsCommon mt src dst ps ∧ ∀ p ∈ ps, i ≤ p.1 ∧ j ≤ p.2 := by
  induction ps generalizing i j with
  | nil => simp [Spec.IsCommon]
  | cons p ps ih =>
    obtain ⟨h1, h2, h3, h4, h5, h6⟩ := h
    obtain ⟨⟨k1, k2⟩, k3⟩ := ih _ _ h6
    refine ⟨⟨List.pairwise_cons.mpr ⟨fun q hq => ?_, k1⟩, fun q hq => ?_⟩, fun q hq => ?_⟩
    · have := k3 q hq; omega
    · rcases List.mem_cons.mp hq with rfl | hq
      · simp only [M, List.getElem?_eq_getElem h3, List.getElem?_eq_getElem h4] at h5
        exact ⟨_, _, List.getElem?_eq_getElem h3, List.getElem?_eq_getElem h4, h5⟩
      · exact k2 q hq
    · rcases List.mem_cons.mp hq with rfl | hq
      · exact ⟨h1, h2⟩
      · have := k3 q hq; omega

theorem chain_of_isCommon (mt : α → α → Bool) (src dst : List α) (i j ps)
    (h : Spec.IsCommon mt src dst ps) (hij : ∀ p ∈ ps, i ≤ p.1 ∧ j ≤ p.2) :
    Chain (M mt src dst) src.length dst.length i j ps := by
  induction ps generalizing i j with
  | nil => trivial
  | cons p ps ih =>
    obtain ⟨h1, h2⟩ := h
    rw [List.pairwise_cons] at h1
    obtain ⟨a, b, ha, hb, hab⟩ := h2 p (by simp)
    have hp := hij p (by simp)
    refine ⟨hp.1, hp.2, (List.getElem?_eq_some_iff.mp ha).1, (List.getElem?_eq_some_iff.mp hb).1,
      by simp [M, ha, hb, hab], ih _ _ ⟨h1.2, fun q hq => h2 q (by simp [hq])⟩ ?_⟩
    intro q hq
    have := h1.1 q hq; omega

/-- **C38.** For every two sequences and every match predicate, `Get` completes with
no failed assertion and no out-of-range access; the two result vectors have the
lengths of the inputs; the positions marked are the two sides of a common
subsequence whose size is the returned number; and no common subsequence is longer.
(The size limit is the 30-bit length field of the table.) -/
theorem lcs_get_optimal (mt : α → α → Bool) (src dst : List α)
    (hsz : min src.length dst.length < 2 ^ 30) :
    ∃ len sm dm ps, get mt src dst = some (len, sm, dm) ∧
      sm.length = src.length ∧ dm.length = dst.length ∧
      Spec.IsCommon mt src dst ps ∧ ps.length = len ∧
      (∀ k, sm[k]? = some true ↔ k ∈ ps.map (·.1)) ∧
      (∀ k, dm[k]? = some true ↔ k ∈ ps.map (·.2)) ∧
      (∀ qs, Spec.IsCommon mt src dst qs → qs.length ≤ len) := by
  have key : ∃ t, calculate mt src dst = some t ∧ Good (M mt src dst) src.length dst.length t ∧
      calcOrOob src.length dst.length t 0 0 = true := by
    have g0 : Good (M mt src dst) src.length dst.length (fun _ _ => none) :=
      ⟨by simp, by simp⟩
    unfold calculate
    by_cases he : (src.isEmpty || dst.isEmpty) = true
    · rw [if_pos he]
      refine ⟨_, rfl, g0, ?_⟩
      have : ¬ (0 < src.length ∧ 0 < dst.length) := by
        simp only [Bool.or_eq_true, List.isEmpty_iff] at he
        rcases he with h | h <;> simp [h]
      unfold calcOrOob inBound
      simp only [Bool.or_eq_true, Bool.not_eq_true', Bool.and_eq_false_iff, decide_eq_false_iff_not]
      left; omega
    · rw [if_neg he]
      have : 0 < src.length ∧ 0 < dst.length := by
        simp only [Bool.or_eq_true, List.isEmpty_iff, not_or] at he
        exact ⟨List.length_pos_iff.mpr he.1, List.length_pos_iff.mpr he.2⟩
      obtain ⟨t, h1, h2, h3, h4⟩ := calcLoop_spec mt src dst hsz _ [(0,0)] g0 (by simpa using this)
      refine ⟨t, h1, h2, ?_⟩
      have := h4 (0,0) (by simp)
      simp only [calcOrOob, Bool.or_eq_true]
      exact Or.inr this
  obtain ⟨t, h1, h2, h3⟩ := key
  obtain ⟨sm, dm, ps, k1, k2, k3, k4, k5, k6, k7⟩ :=
    retrieve_spec h2 0 0 (List.replicate src.length false) (List.replicate dst.length false) h3
      (by simp) (by simp)
  refine ⟨L (M mt src dst) src.length dst.length 0 0, sm, dm, ps, ?_, k2, k3,
    (isCommon_of_chain _ _ _ _ _ _ k4).1, k5, ?_, ?_, ?_⟩
  · simp only [get, h1, k1, memoLen_good h2 _ _ h3]
  · intro k; rw [k6]
    simp only [List.getElem?_replicate]
    constructor
    · rintro (h | h)
      · split at h <;> simp at h
      · exact h
    · exact Or.inr
  · intro k; rw [k7]
    simp only [List.getElem?_replicate]
    constructor
    · rintro (h | h)
      · split at h <;> simp at h
      · exact h
    · exact Or.inr
  · intro qs hq
    exact (chain_of_isCommon mt src dst 0 0 qs hq (by simp)).le_L

/-- Corollary: matched elements are equally many on both sides, and the number of
marks on each side is the returned length. -/
theorem lcs_result_unique_length (mt : α → α → Bool) (src dst : List α)
    (hsz : min src.length dst.length < 2 ^ 30) (len sm dm)
    (h : get mt src dst = some (len, sm, dm)) :
    (∃ ps, Spec.IsCommon mt src dst ps ∧ ps.length = len) ∧
    (∀ qs, Spec.IsCommon mt src dst qs → qs.length ≤ len) := by
  obtain ⟨len', sm', dm', ps, h1, _, _, h4, h5, _, _, h8⟩ := lcs_get_optimal mt src dst hsz
  rw [h] at h1
  simp only [Option.some.injEq, Prod.mk.injEq] at h1
  obtain ⟨rfl, rfl, rfl⟩ := h1
  exact ⟨⟨ps, h4, h5⟩, h8⟩

/-- Non-vacuity: a concrete pair of sequences with a non-trivial common
subsequence (2 of 3 elements; the first and last are paired). -/
example : Spec.IsCommon (fun a b : Nat => a == b) [1, 2, 3] [1, 4, 3] [(0, 0), (2, 2)] := by
  constructor
  · decide
  · intro p hp
    simp only [List.mem_cons, List.not_mem_nil, or_false] at hp
    rcases hp with rfl | rfl
    · exact ⟨1, 1, rfl, rfl, rfl⟩
    · exact ⟨3, 3, rfl, rfl, rfl⟩

end Verif.Lcs
