import Verif.BlockLayout.Complete
/-!
# C59: what an accepted explicit layout guarantees

`check mode relaxed mc 0 block = true` says that the validator accepts the decorations of
the block.  `FineBlock` holds the shape rules of SPIR-V and the assumptions that the block
has no part above 2 GiB and that its lengths, strides and offsets are known; the theorems
say `_partial` because of them (`Example.lean` shows blocks outside them for which the
claims fail).
-/
set_option linter.unusedVariables false
namespace Verif.BlockLayout

variable {mode : Mode} {relaxed : Bool} {mc : MC} {inc : Nat} {infos : List Info} {tys : List Ty}

/-- C59: in an accepted block no two units (scalars, pointers, descriptors) that are reached
by different paths share a byte, whichever members, array elements, matrix components
and vector components they are. -/
theorem accepted_no_overlap_partial (hf : FineBlock infos tys)
    (hc : check mode relaxed mc inc (.struct infos tys) = true) {p p' : List Nat} {a a' n n' : Nat} {m m' : MC}
    {t t' : Ty} (hp : sub mc (.struct infos tys) p = some (a, m, t)) (hl : t.Leaf n)
    (hp' : sub mc (.struct infos tys) p' = some (a', m', t')) (hl' : t'.Leaf n') (hne : p ≠ p') :
    a + n ≤ a' ∨ a' + n' ≤ a :=
  block_apart hf hc hp hl hp' hl' hne

/-- C59: the units of an accepted block without runtime array lie within the size the
validator computes for it. -/
theorem accepted_inside_partial (hf : Fine mc (.struct infos tys))
    (hc : check mode relaxed mc inc (.struct infos tys) = true) {p : List Nat} {a n : Nat} {m : MC} {t : Ty}
    (hp : sub mc (.struct infos tys) p = some (a, m, t)) (hl : t.Leaf n) :
    a + n ≤ size mc (.struct infos tys) :=
  (geo _ hf (by simp [containsMatrix]) hc).inside hp hl

/-- C59: and that size is right: it is where the last part ends. -/
theorem accepted_size_partial (hf : Fine mc (.struct infos tys))
    (hc : check mode relaxed mc inc (.struct infos tys) = true) :
    size mc (.struct infos tys) = extent mc (.struct infos tys) :=
  (geo _ hf (by simp [containsMatrix]) hc).size_eq

/-- C59: every scalar of an accepted block lies at a multiple of its size, in every mode. -/
theorem accepted_scalar_aligned_partial (hf : FineBlock infos tys)
    (hc : check mode relaxed mc inc (.struct infos tys) = true) {p : List Nat} {a b : Nat} {m : MC}
    (hp : sub mc (.struct infos tys) p = some (a, m, .scalar b)) : b ∣ a := by
  simpa [align] using (block_aligned hf hc hp).1

/-- C59: every descriptor and pointer lies at a multiple of its alignment. -/
theorem accepted_handle_aligned_partial (hf : FineBlock infos tys)
    (hc : check mode relaxed mc inc (.struct infos tys) = true) {p : List Nat} {a b al : Nat} {m : MC}
    (hp : sub mc (.struct infos tys) p = some (a, m, .handle b al)) : al ∣ a := by
  simpa [align] using (block_aligned hf hc hp).1

/-- C59: if relaxed block layout is off, every part of an accepted block (member, array
element, vector, matrix, nested struct; at any depth) lies at a multiple of the alignment
Vulkan prescribes for its type in the layout mode. -/
theorem accepted_aligned_partial (hf : FineBlock infos tys)
    (hc : check mode false mc inc (.struct infos tys) = true) {p : List Nat} {a : Nat} {m : MC} {t : Ty}
    (hp : sub mc (.struct infos tys) p = some (a, m, t)) : vkAlign mode m t ∣ a := by
  obtain ⟨h1, h2⟩ := block_aligned hf hc hp
  cases p with
  | nil => rw [sub_nil] at hp; simp at hp; rw [← hp.1]; exact Nat.dvd_zero _
  | cons k q =>
    rcases h2 (by simp) with h | ⟨s, el, rfl, h⟩
    · rwa [align_vk t true h] at h1
    · rw [align, round_pow (align_pow el false h).1, align_vk el false h] at h1
      rwa [vkAlign]

/-- C59: in standard and extended layouts no vector of up to four components that is a member
of a struct straddles, with relaxed block layout off. -/
theorem accepted_no_straddle_partial (hm : mode ≠ .scalar) (hf : FineBlock infos tys)
    (hc : check mode false mc inc (.struct infos tys) = true) {p : List Nat} {a b n : Nat} {m : MC}
    (hp : sub mc (.struct infos tys) p = some (a, m, .vector b n)) (hn : n ≤ 4) : ¬ ImproperStraddle a (b * n) := by
  have h := accepted_aligned_partial hf hc hp
  have h2 := (block_aligned hf hc hp).2 (by rintro rfl; rw [sub_nil] at hp; simp at hp)
  rcases h2 with h2 | ⟨_, _, h2, _⟩
  · simp only [Fine] at h2
    obtain ⟨hb, h1, _⟩ := h2
    rw [vkAlign, vkVector, if_neg hm] at h
    obtain ⟨q, rfl⟩ := h
    have hc : n = 1 ∨ n = 2 ∨ n = 3 ∨ n = 4 := by omega
    unfold ImproperStraddle
    rcases hb with rfl | rfl | rfl | rfl <;> rcases hc with rfl | rfl | rfl | rfl <;> simp <;> omega
  · simp at h2

/-- The test for vectors in relaxed layouts rejects exactly the vectors that straddle improperly, as
long as addresses fit into 32 bits. -/
theorem straddle_test_iff {x n : Nat} (hn : 1 ≤ n) (hx : x + n < 2 ^ 32) :
    improperStraddle x n = true ↔ ImproperStraddle x n := by
  unfold improperStraddle ImproperStraddle
  split
  · have h : w (x + n + (2 ^ 32 - 1)) = x + n - 1 := by unfold w; omega
    rw [h]
    simp [Nat.shiftRight_eq_div_pow]
  · simp

example : improperStraddle 8 8 = false ∧ improperStraddle 12 8 = true := by decide

/-- C59: nor with relaxed block layout on, if the block has no runtime array. -/
theorem accepted_no_straddle_relaxed_partial (hm : mode ≠ .scalar) (hf : Fine mc (.struct infos tys))
    (hc : check mode true mc 0 (.struct infos tys) = true) {p : List Nat} {a b n : Nat} {m : MC}
    (hp : sub mc (.struct infos tys) p = some (a, m, .vector b n)) (hi : IsMember mc (.struct infos tys) p) :
    ¬ ImproperStraddle a (b * n) := by
  have h := straddle hm (.struct infos tys) (inc := 0) hf (by simp [containsMatrix]) hc p a m b n hi hp
  rw [Nat.zero_add] at h
  refine (snug_iff ?_).1 h
  have h2 := (block_aligned (fineBlock_of_fine hf) hc hp).2 (by rintro rfl; rw [sub_nil] at hp; simp at hp)
  rcases h2 with h2 | ⟨_, _, h2, _⟩
  · simp only [Fine] at h2
    have : 1 * 1 ≤ b * n := Nat.mul_le_mul h2.1.pow.pos h2.2.1
    omega
  · simp at h2

/-- C59: with relaxed block layout off the validator accepts exactly the blocks that follow
the rules of Vulkan. -/
theorem accepted_iff_rules_partial (hf : FineBlock infos tys) (hs : ∀ t ∈ tys, Solid t) :
    check mode false mc 0 (.struct infos tys) = true ↔ Rules mode mc (.struct infos tys) :=
  ⟨block_rules hf hs, block_complete hf⟩

end Verif.BlockLayout
