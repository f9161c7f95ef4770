import Verif.VectorDce.Spec
set_option linter.unusedSimpArgs false
set_option linter.unusedVariables false
set_option linter.unusedSectionVars false
/-!
# The work list: the set found is closed
-/
namespace Verif.VectorDce
open Verif.SsaExec Verif.VectorDce.Spec
variable {I B : Type} [DecidableEq I] {f : Func I B}

theorem testBit_clear (b p k : Nat) : (clear b p).testBit k = (b.testBit k && decide (k ≠ p)) := by
  simp only [clear, Nat.testBit_xor, Nat.testBit_and, Nat.testBit_two_pow]
  by_cases h : p = k
  · subst h; simp
  · have : k ≠ p := fun e => h e.symm
    simp [h, this]

theorem testBit_allLive (k : Nat) : allLive.testBit k = decide (k < 16) := by
  rw [allLive, Nat.testBit_two_pow_sub_one]

theorem testBit_one (k : Nat) : (1 : Nat).testBit k = decide (k = 0) := by
  have := Nat.testBit_two_pow (n := 0) (m := k)
  simpa [eq_comm] using this

/-- All of `b` is live in `d`. -/
def Covers (live : I → Option Nat) (d : I) (b : Nat) : Prop :=
  ∃ b', live d = some b' ∧ ∀ k, b.testBit k → b'.testBit k

def Done (f : Func I B) (live : I → Option Nat) (i : I) (c : Nat) : Prop :=
  ∀ it ∈ f.mark i c, Covers live it.1 it.2

theorem add_covers (s : State I) (it : I × Nat) : Covers (add s it).live it.1 it.2 := by
  unfold add
  split
  · exact ⟨it.2, by simp, fun _ h => h⟩
  · next b hb =>
    split
    · next h =>
      refine ⟨b, hb, fun k hk => ?_⟩
      rw [← h, Nat.testBit_or, hk]; simp
    · refine ⟨b ||| it.2, by simp, fun k hk => ?_⟩
      rw [Nat.testBit_or, hk]; simp

theorem add_mono {s : State I} {it : I × Nat} {d b} (h : Covers s.live d b) : Covers (add s it).live d b := by
  obtain ⟨b', hb', hk⟩ := h
  unfold add
  split
  · next hn =>
    refine ⟨b', ?_, hk⟩
    have : d ≠ it.1 := by rintro rfl; simp [hn] at hb'
    simp [this, hb']
  · next b2 hb =>
    split
    · exact ⟨b', hb', hk⟩
    · by_cases hd : d = it.1
      · subst hd
        rw [hb] at hb'
        cases hb'
        exact ⟨b' ||| it.2, by simp, fun k h => by rw [Nat.testBit_or, hk k h]; simp⟩
      · exact ⟨b', by simp [hd, hb'], hk⟩

theorem addAll_mono {its : List (I × Nat)} {s : State I} {d b} (h : Covers s.live d b) :
    Covers (its.foldl add s).live d b := by
  induction its generalizing s with
  | nil => exact h
  | cons it its ih => exact ih (add_mono h)

theorem addAll_covers {its : List (I × Nat)} {s : State I} : ∀ it ∈ its, Covers (its.foldl add s).live it.1 it.2 := by
  induction its generalizing s with
  | nil => simp
  | cons it its ih =>
    intro x hx
    simp only [List.mem_cons] at hx
    rcases hx with rfl | hx
    · rw [List.foldl_cons]; exact addAll_mono (add_covers s x)
    · exact ih x hx

/-- Every live component is in an item that was processed, is in the work list or is in `extra`. -/
structure Inv (f : Func I B) (extra : List (I × Nat)) (s : State I) : Prop where
  bits : ∀ i b k, s.live i = some b → b.testBit k →
    ∃ c, c.testBit k ∧ (Done f s.live i c ∨ (i, c) ∈ s.work ∨ (i, c) ∈ extra)
  tracked : ∀ i b, s.live i = some b → f.tracked i
  work : ∀ it ∈ s.work, f.tracked it.1

theorem add_work {s : State I} {it x : I × Nat} (h : x ∈ s.work) : x ∈ (add s it).work := by
  unfold add
  split
  · simp [h]
  · split <;> simp [h]

theorem Inv.add {extra : List (I × Nat)} {s : State I} (h : Inv f extra s) {it : I × Nat} (ht : f.tracked it.1) :
    Inv f extra (add s it) := by
  have old : ∀ i c k, c.testBit k → (Done f s.live i c ∨ (i, c) ∈ s.work ∨ (i, c) ∈ extra) →
      ∃ c, c.testBit k ∧ (Done f (VectorDce.add s it).live i c ∨ (i, c) ∈ (VectorDce.add s it).work ∨ (i, c) ∈ extra) := by
    intro i c k hk hc
    refine ⟨c, hk, ?_⟩
    rcases hc with hc | hc | hc
    · exact .inl fun x hx => add_mono (hc x hx)
    · exact .inr (.inl (add_work hc))
    · exact .inr (.inr hc)
  refine ⟨?_, ?_, ?_⟩
  · intro i b k hb hk
    by_cases hi : i = it.1
    · subst hi
      have hold := h.bits it.1
      unfold VectorDce.add at hb
      split at hb
      · next hn =>
        simp at hb
        subst hb
        refine ⟨it.2, hk, .inr (.inl ?_)⟩
        simp [VectorDce.add, hn]
      · next b2 hb2 =>
        split at hb
        · obtain ⟨c, h1, h2⟩ := hold b k hb hk
          exact old _ c k h1 h2
        · next hne =>
          simp at hb
          subst hb
          rw [Nat.testBit_or, Bool.or_eq_true] at hk
          rcases hk with hk | hk
          · obtain ⟨c, h1, h2⟩ := hold b2 k hb2 hk
            exact old _ c k h1 h2
          · refine ⟨it.2, hk, .inr (.inl ?_)⟩
            simp [VectorDce.add, hb2, hne]
    · have : s.live i = some b := by
        unfold VectorDce.add at hb
        split at hb
        · simpa [hi] using hb
        · split at hb
          · exact hb
          · simpa [hi] using hb
      obtain ⟨c, h1, h2⟩ := h.bits i b k this hk
      exact old _ c k h1 h2
  · intro i b hb
    unfold VectorDce.add at hb
    split at hb
    · simp only at hb
      split at hb
      · next e => subst e; exact ht
      · exact h.tracked i b hb
    · split at hb
      · exact h.tracked i b hb
      · simp only at hb
        split at hb
        · next e => subst e; exact ht
        · exact h.tracked i b hb
  · intro x hx
    unfold VectorDce.add at hx
    split at hx
    · simp only [List.mem_append, List.mem_singleton] at hx
      rcases hx with hx | rfl
      · exact h.work x hx
      · exact ht
    · split at hx
      · exact h.work x hx
      · simp only [List.mem_append, List.mem_singleton] at hx
        rcases hx with hx | rfl
        · exact h.work x hx
        · exact ht

theorem Inv.addAll {extra : List (I × Nat)} {its : List (I × Nat)} {s : State I} (h : Inv f extra s)
    (ht : ∀ it ∈ its, f.tracked it.1) : Inv f extra (its.foldl VectorDce.add s) := by
  induction its generalizing s with
  | nil => exact h
  | cons it its ih =>
    exact ih (h.add (ht it (by simp))) fun x hx => ht x (by simp [hx])

theorem markUses_tracked {i c} : ∀ it ∈ f.markUses i c, f.tracked it.1 := by
  intro it hit
  simp only [Func.markUses, List.mem_filterMap] at hit
  obtain ⟨d, -, hd⟩ := hit
  split at hd <;> simp at hd <;> subst hd <;> simp_all [Func.tracked]

theorem markConstruct_tracked {live} : ∀ (ds : List I) k, (∀ d ∈ ds, f.shape d ≠ .other) →
    ∀ it ∈ f.markConstruct live ds k, f.tracked it.1 := by
  intro ds
  induction ds with
  | nil => intro k _ it h; simp [Func.markConstruct] at h
  | cons d ds ih =>
    intro k hd it hit
    have h1 := hd d (by simp)
    have h2 := fun k => ih k fun d h => hd d (by simp [h])
    rw [Func.markConstruct] at hit
    split at hit
    · simp only [List.mem_cons] at hit
      rcases hit with rfl | hit
      · simp [Func.tracked, h1]
      · exact h2 _ it hit
    · simp only [List.mem_cons] at hit
      rcases hit with rfl | hit
      · simp [Func.tracked, h1]
      · exact h2 _ it hit

theorem mark_tracked (hT : Typed f) {i c} (hi : f.tracked i) : ∀ it ∈ f.mark i c, f.tracked it.1 := by
  intro it hit
  unfold Func.mark at hit
  split at hit
  · next idx hk =>
    unfold Func.markExtract at hit
    split at hit
    · split at hit
      · next ht =>
        split at hit <;> simp at hit <;> subst hit <;> exact ht
      · simp at hit
    · simp at hit
  · next idx hk =>
    obtain ⟨o, d, ho, hd, h1, h2⟩ := hT.insert i idx hk
    rw [Func.markInsert, ho] at hit
    have hi' : f.shape i ≠ .other := by simpa [Func.tracked] using hi
    cases idx with
    | nil =>
      simp at hit
      subst hit
      simp [Func.tracked, h1 rfl, hi']
    | cons p idx =>
      simp only [List.mem_cons] at hit
      rcases hit with rfl | hit
      · simp [Func.tracked, hd, hi']
      · split at hit <;> simp at hit
        subst hit
        simp [Func.tracked, (h2 (by simp)).2 hi']
  · next idx hk =>
    obtain ⟨a, b, n1, n2, ho, ha, hb⟩ := hT.shuffle i idx hk
    rw [Func.markShuffle, ho] at hit
    simp at hit
    rcases hit with rfl | rfl
    · simp [Func.tracked, ha]
    · simp [Func.tracked, hb]
  · next hk =>
    cases hs : f.shape i with
    | scalar => exact absurd hs (hT.construct_kind i hk)
    | other => simp [Func.tracked, hs] at hi
    | vec n => exact markConstruct_tracked _ _ (hT.construct i n hk hs) it hit
  · exact markUses_tracked it hit
  · exact markUses_tracked it hit

/-- What the search establishes. -/
structure Closed (f : Func I B) (live : I → Option Nat) : Prop where
  bits : ∀ i b k, live i = some b → b.testBit k → ∃ c, c.testBit k ∧ Done f live i c
  tracked : ∀ i b, live i = some b → f.tracked i
  roots : ∀ i ∈ f.insts, f.root i → ∀ it ∈ f.markUses i allLive, Covers live it.1 it.2

theorem loop_closed (hT : Typed f) {n : Nat} {s : State I} {live} (h : f.loop n s = some live) (hi : Inv f [] s)
    (hr : ∀ i ∈ f.insts, f.root i → ∀ it ∈ f.markUses i allLive, Covers s.live it.1 it.2) : Closed f live := by
  have fin : s.work = [] → s.live = live → Closed f live := by
    intro hw hl
    subst hl
    refine ⟨?_, hi.tracked, hr⟩
    intro i b k hb hk
    obtain ⟨c, h1, h2⟩ := hi.bits i b k hb hk
    rw [hw] at h2
    simp at h2
    exact ⟨c, h1, h2⟩
  induction n generalizing s with
  | zero =>
    rw [Func.loop] at h
    split at h
    · next hw => exact fin hw (by simpa using h)
    · simp at h
  | succ n ih =>
    rw [Func.loop] at h
    split at h
    · next hw => exact fin hw (by simpa using h)
    · next it rest hw =>
      have hti : f.tracked it.1 := hi.work it (by simp [hw])
      have h0 : Inv f [it] ⟨s.live, rest⟩ := by
        refine ⟨?_, hi.tracked, fun x hx => hi.work x (by simp [hw, hx])⟩
        intro i b k hb hk
        obtain ⟨c, h1, h2⟩ := hi.bits i b k hb hk
        refine ⟨c, h1, ?_⟩
        rw [hw] at h2
        simp at h2 ⊢
        rcases h2 with h2 | h2 | h2
        · exact .inl h2
        · exact .inr (.inr h2)
        · exact .inr (.inl h2)
      have h1 := h0.addAll (its := f.mark it.1 it.2) (mark_tracked hT hti)
      refine ih h ⟨?_, h1.tracked, h1.work⟩ (fun i hi hr' x hx => addAll_mono (hr i hi hr' x hx)) ?_
      · intro i b k hb hk
        obtain ⟨c, h2, h3⟩ := h1.bits i b k hb hk
        refine ⟨c, h2, ?_⟩
        rcases h3 with h3 | h3 | h3
        · exact .inl h3
        · exact .inr (.inl h3)
        · simp at h3
          left
          obtain ⟨rfl, rfl⟩ : i = it.1 ∧ c = it.2 := by rw [← h3]; simp
          exact addAll_covers
      · intro hw' hl
        have hi' : Inv f [] ((f.mark it.1 it.2).foldl VectorDce.add ⟨s.live, rest⟩) := by
          refine ⟨?_, h1.tracked, h1.work⟩
          intro i b k hb hk
          obtain ⟨c, h2, h3⟩ := h1.bits i b k hb hk
          refine ⟨c, h2, ?_⟩
          rcases h3 with h3 | h3 | h3
          · exact .inl h3
          · exact .inr (.inl h3)
          · simp at h3
            left
            obtain ⟨rfl, rfl⟩ : i = it.1 ∧ c = it.2 := by rw [← h3]; simp
            exact addAll_covers
        subst hl
        refine ⟨?_, hi'.tracked, fun i hi hr' x hx => addAll_mono (hr i hi hr' x hx)⟩
        intro i b k hb hk
        obtain ⟨c, h1, h2⟩ := hi'.bits i b k hb hk
        rw [hw'] at h2
        simp at h2
        exact ⟨c, h1, h2⟩

theorem prime_inv : Inv f [] f.prime ∧
    ∀ i ∈ f.insts, f.root i → ∀ it ∈ f.markUses i allLive, Covers f.prime.live it.1 it.2 := by
  have : ∀ (is : List I) (s : State I), Inv f [] s →
      Inv f [] (is.foldl (fun s i => (f.markUses i allLive).foldl add s) s) ∧
      (∀ d b, Covers s.live d b → Covers (is.foldl (fun s i => (f.markUses i allLive).foldl add s) s).live d b) ∧
      ∀ i ∈ is, ∀ it ∈ f.markUses i allLive,
        Covers (is.foldl (fun s i => (f.markUses i allLive).foldl add s) s).live it.1 it.2 := by
    intro is
    induction is with
    | nil => intro s h; exact ⟨h, fun _ _ h => h, by simp⟩
    | cons i is ih =>
      intro s h
      obtain ⟨h1, h2, h3⟩ := ih _ (h.addAll (markUses_tracked (i := i) (c := allLive)))
      refine ⟨h1, fun d b hc => h2 d b (addAll_mono hc), ?_⟩
      intro j hj it hit
      simp only [List.mem_cons] at hj
      rcases hj with rfl | hj
      · exact h2 _ _ (addAll_covers it hit)
      · exact h3 j hj it hit
  obtain ⟨h1, -, h3⟩ := this (f.insts.filter f.root) ⟨fun _ => none, []⟩ ⟨by simp, by simp, by simp⟩
  exact ⟨h1, fun i hi hr => h3 i (by simp [hi, hr])⟩

theorem findLive_closed (hT : Typed f) {n live} (h : f.findLive n = some live) : Closed f live :=
  loop_closed hT h prime_inv.1 prime_inv.2

end Verif.VectorDce
