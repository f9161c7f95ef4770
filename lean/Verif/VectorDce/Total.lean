import Verif.VectorDce.Comp
set_option linter.unusedSimpArgs false
set_option linter.unusedVariables false
set_option linter.unusedSectionVars false
/-!
# The work list becomes empty
-/
namespace Verif.VectorDce
open Verif.SsaExec Verif.VectorDce.Spec
variable {I B : Type} [DecidableEq I] {f : Func I B}

def room (W : Nat) (o : Option Nat) : Nat :=
  2 ^ W - (match o with | none => 0 | some b => b + 1)

def pot (W : Nat) (all : List I) (live : I → Option Nat) : Nat := (all.map fun d => room W (live d)).sum

theorem sum_le {all : List I} {g g' : I → Nat} (h : ∀ d, g' d ≤ g d) : (all.map g').sum ≤ (all.map g).sum := by
  induction all with
  | nil => simp
  | cons d all ih => simp; have := h d; omega

theorem sum_lt {all : List I} {g g' : I → Nat} (h : ∀ d, g' d ≤ g d) {d} (hd : d ∈ all) (hlt : g' d < g d) :
    (all.map g').sum < (all.map g).sum := by
  induction all with
  | nil => cases hd
  | cons e all ih =>
    simp only [List.map_cons, List.sum_cons]
    have h1 := h e
    have h2 := sum_le (all := all) h
    by_cases he : d = e
    · subst he; omega
    · have := ih (by simpa [he] using hd)
      omega

structure Bounded (W : Nat) (s : State I) : Prop where
  live : ∀ d b, s.live d = some b → b < 2 ^ W
  work : ∀ it ∈ s.work, it.2 < 2 ^ W

theorem add_bounded {W : Nat} {all : List I} (hall : ∀ d, d ∈ all) {s : State I} (hb : Bounded W s) {it : I × Nat}
    (hit : it.2 < 2 ^ W) : Bounded W (add s it) ∧
    2 * pot W all (add s it).live + (add s it).work.length ≤ 2 * pot W all s.live + s.work.length := by
  unfold add
  split
  · next hn =>
    refine ⟨⟨?_, ?_⟩, ?_⟩
    · intro d b h
      simp only at h
      split at h
      · cases h; exact hit
      · exact hb.live d b h
    · intro x hx
      simp at hx
      rcases hx with hx | rfl
      · exact hb.work x hx
      · exact hit
    · have : pot W all (fun d => if d = it.1 then some it.2 else s.live d) < pot W all s.live := by
        apply sum_lt (d := it.1) _ (hall _)
        · simp [hn, room]; omega
        · intro d
          simp only
          split
          · next h => subst h; simp [hn, room]
          · exact Nat.le_refl _
      simp only [List.length_append, List.length_cons, List.length_nil]
      omega
  · next b hb' =>
    split
    · exact ⟨hb, Nat.le_refl _⟩
    · next hne =>
      have hlt : b ||| it.2 < 2 ^ W := Nat.or_lt_two_pow (hb.live _ _ hb') hit
      have hgt : b < b ||| it.2 := by
        have : b ≤ b ||| it.2 := Nat.left_le_or
        omega
      refine ⟨⟨?_, ?_⟩, ?_⟩
      · intro d b h
        simp only at h
        split at h
        · cases h; exact hlt
        · exact hb.live d b h
      · intro x hx
        simp at hx
        rcases hx with hx | rfl
        · exact hb.work x hx
        · exact hit
      · have : pot W all (fun d => if d = it.1 then some (b ||| it.2) else s.live d) < pot W all s.live := by
          apply sum_lt (d := it.1) _ (hall _)
          · simp [hb', room]; omega
          · intro d
            simp only
            split
            · next h => subst h; simp [hb', room]; omega
            · exact Nat.le_refl _
        simp only [List.length_append, List.length_cons, List.length_nil]
        omega

theorem addAll_bounded {W : Nat} {all : List I} (hall : ∀ d, d ∈ all) {its : List (I × Nat)} {s : State I}
    (hb : Bounded W s) (hit : ∀ it ∈ its, it.2 < 2 ^ W) : Bounded W (its.foldl add s) ∧
    2 * pot W all (its.foldl add s).live + (its.foldl add s).work.length ≤ 2 * pot W all s.live + s.work.length := by
  induction its generalizing s with
  | nil => exact ⟨hb, Nat.le_refl _⟩
  | cons it its ih =>
    obtain ⟨h1, h2⟩ := add_bounded hall hb (hit it (by simp))
    obtain ⟨h3, h4⟩ := ih h1 fun x hx => hit x (by simp [hx])
    exact ⟨h3, Nat.le_trans h4 h2⟩

theorem pow_lt {j n W : Nat} (h : j < n) (h' : n ≤ W) : 2 ^ j < 2 ^ W :=
  Nat.pow_lt_pow_right (by omega) (by omega)

theorem clear_lt {b p W : Nat} (h : b < 2 ^ W) : clear b p < 2 ^ W :=
  Nat.xor_lt_two_pow h (Nat.lt_of_le_of_lt Nat.and_le_left h)

theorem slice_lt (live k : Nat) : ∀ n, slice live k n < 2 ^ n := by
  intro n
  induction n with
  | zero => simp [slice]
  | succ n ih =>
    rw [slice]
    have : 2 ^ n < 2 ^ (n + 1) := Nat.pow_lt_pow_right (by omega) (by omega)
    apply Nat.or_lt_two_pow
    · omega
    · split
      · exact this
      · omega

theorem shuffle_lt {n1 n2 live W : Nat} (h1 : n1 ≤ W) (h2 : n2 ≤ W) : ∀ idx k,
    (shuffleUses n1 n2 live idx k).1 < 2 ^ W ∧ (shuffleUses n1 n2 live idx k).2 < 2 ^ W := by
  intro idx
  induction idx with
  | nil => intro k; simp [shuffleUses, Nat.two_pow_pos]
  | cons n idx ih =>
    intro k
    obtain ⟨a, b⟩ := ih (k + 1)
    rw [shuffleUses]
    split
    · split
      · next h => exact ⟨Nat.or_lt_two_pow a (pow_lt h h1), b⟩
      · split
        · next h => exact ⟨a, Nat.or_lt_two_pow b (pow_lt h h2)⟩
        · exact ⟨a, b⟩
    · exact ⟨a, b⟩

theorem one_lt {W : Nat} (h : 16 ≤ W) : 1 < 2 ^ W := Nat.one_lt_two_pow (by omega)

theorem allLive_lt {W : Nat} (h : 16 ≤ W) : allLive < 2 ^ W := by
  have : 2 ^ 16 ≤ 2 ^ W := Nat.pow_le_pow_right (by omega) h
  simp only [allLive]
  omega

theorem markUses_lt {W : Nat} (h : 16 ≤ W) {i c} (hc : c < 2 ^ W) : ∀ it ∈ f.markUses i c, it.2 < 2 ^ W := by
  intro it hit
  simp only [Func.markUses, List.mem_filterMap] at hit
  obtain ⟨d, -, hd⟩ := hit
  have := one_lt h
  split at hd <;> simp at hd <;> subst hd
  · exact hc
  · exact this

theorem markConstruct_lt {W : Nat} (h : 16 ≤ W) (hw : ∀ d, f.count d ≤ W) {c} : ∀ (ds : List I) k,
    ∀ it ∈ f.markConstruct c ds k, it.2 < 2 ^ W := by
  intro ds
  have := one_lt h
  induction ds with
  | nil => intro k it h; simp [Func.markConstruct] at h
  | cons d ds ih =>
    intro k it hit
    rw [Func.markConstruct] at hit
    split at hit
    · simp only [List.mem_cons] at hit
      rcases hit with rfl | hit
      · simp only; split <;> omega
      · exact ih _ it hit
    · simp only [List.mem_cons] at hit
      rcases hit with rfl | hit
      · exact Nat.lt_of_lt_of_le (slice_lt _ _ _) (Nat.pow_le_pow_right (by omega) (hw d))
      · exact ih _ it hit

theorem mark_lt {W : Nat} (h : 16 ≤ W) (hw : ∀ d, f.count d ≤ W) {i c} (hc : c < 2 ^ W) :
    ∀ it ∈ f.mark i c, it.2 < 2 ^ W := by
  intro it hit
  have h1 := one_lt h
  unfold Func.mark at hit
  split at hit
  · unfold Func.markExtract at hit
    split at hit
    · split at hit
      · split at hit <;> simp at hit <;> subst hit
        · exact hc
        · simp only
          split
          · next hj => exact pow_lt hj (hw _)
          · omega
      · simp at hit
    · simp at hit
  · unfold Func.markInsert at hit
    split at hit
    · split at hit
      · simp only [List.mem_cons] at hit
        rcases hit with rfl | hit
        · exact clear_lt hc
        · split at hit <;> simp at hit
          subst hit
          exact h1
      · simp at hit
        subst hit
        exact hc
    · simp at hit
  · unfold Func.markShuffle at hit
    split at hit
    · simp at hit
      rcases hit with rfl | rfl
      · exact (shuffle_lt (hw _) (hw _) _ _).1
      · exact (shuffle_lt (hw _) (hw _) _ _).2
    · simp at hit
  · exact markConstruct_lt h hw _ _ it hit
  · exact markUses_lt h hc it hit
  · exact markUses_lt h (allLive_lt h) it hit

theorem loop_total {W : Nat} (h : 16 ≤ W) (hw : ∀ d, f.count d ≤ W) {all : List I} (hall : ∀ d, d ∈ all) :
    ∀ (n : Nat) (s : State I), Bounded W s → 2 * pot W all s.live + s.work.length ≤ n → ∃ live, f.loop n s = some live := by
  intro n
  induction n with
  | zero =>
    intro s hb hn
    have : s.work = [] := List.length_eq_zero_iff.mp (by omega)
    exact ⟨s.live, by simp [Func.loop, this]⟩
  | succ n ih =>
    intro s hb hn
    rw [Func.loop]
    cases hs : s.work with
    | nil => exact ⟨s.live, rfl⟩
    | cons it rest =>
      simp only
      have hb' : Bounded W ⟨s.live, rest⟩ := ⟨hb.live, fun x hx => hb.work x (by simp [hs, hx])⟩
      obtain ⟨h1, h2⟩ := addAll_bounded (its := f.mark it.1 it.2) hall hb' (mark_lt h hw (hb.work it (by simp [hs])))
      refine ih _ h1 ?_
      rw [hs] at hn
      simp only [List.length_cons] at hn
      simp only at h2
      omega

theorem prime_bounded {W : Nat} (h : 16 ≤ W) {all : List I} (hall : ∀ d, d ∈ all) : Bounded W f.prime := by
  have : ∀ (is : List I) (s : State I), Bounded W s →
      Bounded W (is.foldl (fun s i => (f.markUses i allLive).foldl add s) s) := by
    intro is
    induction is with
    | nil => intro s h; exact h
    | cons i is ih =>
      intro s hb
      exact ih _ (addAll_bounded hall hb (markUses_lt h (allLive_lt h))).1
  exact this _ _ ⟨by simp, by simp⟩

theorem count_le_sum {all : List I} {g : I → Nat} {d} (h : d ∈ all) : g d ≤ (all.map g).sum := by
  induction all with
  | nil => cases h
  | cons e all ih =>
    simp only [List.map_cons, List.sum_cons, List.mem_cons] at *
    rcases h with rfl | h
    · omega
    · have := ih h; omega

theorem findLive_total {all : List I} (hall : ∀ d, d ∈ all) : ∃ n live, f.findLive n = some live := by
  have h16 : 16 ≤ 16 + (all.map f.count).sum := by omega
  have hw : ∀ d, f.count d ≤ 16 + (all.map f.count).sum := by
    intro d
    have := count_le_sum (g := f.count) (hall d)
    omega
  exact ⟨_, loop_total h16 hw hall _ f.prime (prime_bounded h16 hall) (Nat.le_refl _)⟩

end Verif.VectorDce
