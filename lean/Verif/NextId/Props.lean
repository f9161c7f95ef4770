import Verif.NextId.Model

/-!
# C32: fresh ids never collide and overflow is detected
-/
namespace Verif.NextId
open Verif.StringLit (Word)

theorem takeNextId_cases (c : Ctx) (h0 : c.bound ≠ 0) :
    (c.bound < c.maxBound ∧ takeNextId c = (c.bound, { c with bound := c.bound + 1 }) ∧
      (c.bound + 1).toNat = c.bound.toNat + 1) ∨
    (¬ c.bound < c.maxBound ∧ takeNextId c = (0, { c with overflow := true })) := by
  unfold takeNextId takeNextIdBound
  by_cases h : c.bound < c.maxBound
  · have h1 : ¬ c.bound ≥ c.maxBound := by
      rw [ge_iff_le, BitVec.le_def]; rw [BitVec.lt_def] at h; omega
    refine Or.inl ⟨h, by simp only [if_neg h1]; rw [if_neg h0], ?_⟩
    rw [BitVec.lt_def] at h
    have := c.maxBound.isLt
    rw [BitVec.toNat_add]
    simp; omega
  · have h1 : c.bound ≥ c.maxBound := by
      rw [ge_iff_le, BitVec.le_def]; rw [BitVec.lt_def] at h; omega
    exact Or.inr ⟨h, by simp [h1]⟩

/-- C32, one request, in a module that has an id bound: either a new id below the configured
maximum is returned, which is the old bound (so different from every id below it), the
bound grows by one and the overflow flag is kept; or the maximum was reached, 0 is returned,
the bound stays and the overflow is recorded. -/
theorem takeNextId_spec (c : Ctx) (h0 : c.bound ≠ 0) :
    let (id, c') := takeNextId c
    (c.bound.toNat < c.maxBound.toNat ∧ id ≠ 0 ∧ id = c.bound ∧ c'.bound.toNat = c.bound.toNat + 1 ∧
      c'.overflow = c.overflow ∧ c'.maxBound = c.maxBound) ∨
    (c.maxBound.toNat ≤ c.bound.toNat ∧ id = 0 ∧ c'.bound = c.bound ∧ c'.overflow = true ∧
      c'.maxBound = c.maxBound) := by
  rcases takeNextId_cases c h0 with ⟨h1, h2, h3⟩ | ⟨h1, h2⟩
  · rw [h2]; rw [BitVec.lt_def] at h1; exact Or.inl ⟨h1, h0, rfl, h3, rfl, rfl⟩
  · rw [h2]; rw [BitVec.lt_def] at h1; exact Or.inr ⟨by omega, rfl, rfl, rfl, rfl⟩

/-- C32, any number of requests: among the ids handed out (0 = refused) the successful
ones are pairwise distinct and differ from every id of a module whose ids are below its
bound; they are below the new bound; and the overflow flag is raised exactly when some
request was refused. -/
theorem takeMany_fresh (n : Nat) (c : Ctx) (h0 : c.bound ≠ 0) (hov : c.overflow = false)
    (used : List Word) (hu : ∀ x ∈ used, x.toNat < c.bound.toNat) :
    let (ids, c') := takeMany n c
    ids.length = n ∧
    (ids.filter (· ≠ 0)).Nodup ∧
    (∀ x ∈ ids, x ≠ 0 → x ∉ used) ∧
    (∀ x ∈ used ++ ids, x.toNat < c'.bound.toNat) ∧
    (c'.overflow = true ↔ 0 ∈ ids) ∧
    (0 ∈ ids ↔ c.maxBound.toNat < c.bound.toNat + n ∧ n ≠ 0) := by
  have key : ∀ n (c : Ctx), c.bound ≠ 0 →
      (takeMany n c).1.length = n ∧
      (∀ x ∈ (takeMany n c).1, x ≠ 0 → c.bound.toNat ≤ x.toNat) ∧
      ((takeMany n c).1.filter (· ≠ 0)).Nodup ∧
      (∀ x ∈ (takeMany n c).1, x.toNat < (takeMany n c).2.bound.toNat) ∧
      c.bound.toNat ≤ (takeMany n c).2.bound.toNat ∧
      ((takeMany n c).2.overflow = true ↔ c.overflow = true ∨ 0 ∈ (takeMany n c).1) ∧
      (0 ∈ (takeMany n c).1 ↔ c.maxBound.toNat < c.bound.toNat + n ∧ n ≠ 0) := by
    intro n
    induction n with
    | zero => intro c h0; simp [takeMany]
    | succ n ih =>
      intro c h0
      have hb : 0 < c.bound.toNat := by
        rcases Nat.eq_zero_or_pos c.bound.toNat with h | h
        · exact absurd (BitVec.eq_of_toNat_eq (by simpa using h)) h0
        · exact h
      simp only [takeMany]
      rcases takeNextId_cases c h0 with ⟨h1, h2, h3⟩ | ⟨h1, h2⟩
      · rw [h2]
        rw [BitVec.lt_def] at h1
        have hne : ({ c with bound := c.bound + 1 } : Ctx).bound ≠ 0 := by
          intro h; simp only at h; rw [h] at h3; simp at h3
        obtain ⟨a1, a2, a3, a4, a5, a6, a7⟩ := ih { c with bound := c.bound + 1 } hne
        simp only [h3] at a2 a5 a7
        simp only
        refine ⟨by rw [List.length_cons, a1], ?_, ?_, ?_, by omega, ?_, ?_⟩
        · intro x hx hx0
          rcases List.mem_cons.1 hx with rfl | hx
          · simp
          · have := a2 x hx hx0; omega
        · simp only [List.filter_cons, ne_eq, h0, not_false_eq_true, decide_true, if_true,
            List.nodup_cons]
          refine ⟨?_, a3⟩
          intro hm
          obtain ⟨hm1, hm2⟩ := List.mem_filter.1 hm
          have := a2 _ hm1 (by simpa using hm2)
          omega
        · intro x hx
          rcases List.mem_cons.1 hx with rfl | hx
          · omega
          · exact a4 x hx
        · rw [a6, List.mem_cons]
          simp only [h0.symm, false_or]
        · rw [List.mem_cons, a7]
          simp only [h0.symm, false_or]
          constructor
          · rintro ⟨h, _⟩; exact ⟨by omega, by omega⟩
          · rintro ⟨h, _⟩; exact ⟨by omega, by omega⟩
      · rw [h2]
        rw [BitVec.lt_def] at h1
        obtain ⟨a1, a2, a3, a4, a5, a6, a7⟩ := ih { c with overflow := true } h0
        simp only at a2 a5 a6 a7
        simp only
        refine ⟨by rw [List.length_cons, a1], ?_, ?_, ?_, a5, ?_, ?_⟩
        · intro x hx hx0
          rcases List.mem_cons.1 hx with rfl | hx
          · exact absurd rfl hx0
          · exact a2 x hx hx0
        · simpa using a3
        · intro x hx
          rcases List.mem_cons.1 hx with rfl | hx
          · simp; omega
          · exact a4 x hx
        · rw [a6]; simp
        · simp only [List.mem_cons, true_or, true_iff]; exact ⟨by omega, by omega⟩
  obtain ⟨a1, a2, a3, a4, a5, a6, a7⟩ := key n c h0
  refine ⟨a1, a3, ?_, ?_, by rw [a6, hov]; simp, a7⟩
  · intro x hx hx0 hxu
    have := a2 x hx hx0
    have := hu x hxu
    omega
  · intro x hx
    rcases List.mem_append.1 hx with h | h
    · have := hu x h; omega
    · exact a4 x h

/-- Bound 8, maximum 10: two ids, then refusals. -/
example : takeMany 4 ⟨8, 10, false⟩ = ([8, 9, 0, 0], ⟨10, 10, true⟩) := by decide

end Verif.NextId
