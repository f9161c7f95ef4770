import Verif.DataFlow.Props
set_option linter.unusedSimpArgs false
set_option linter.unusedVariables false
set_option linter.unusedSectionVars false
/-!
# More about the data-flow engine
-/
namespace Verif.DataFlow
open Spec
variable {S S' ι : Type} [DecidableEq ι]

/-- What every visit keeps, holds at the end. -/
theorem drain_inv {A : Analysis S ι} {I : S → Prop} (h : ∀ i s, I s → I (A.visit i s).1)
    {s : S} {w : Work ι} {c : Bool} {r : S × Work ι × Bool} (hr : drain A s w c = some r)
    (hs : I s) : I r.1 := by
  have := drain.partial_correctness A (fun s w c r => I s → I r.1) (by
    intro g ih s w c r hr hs
    split at hr
    · cases hr; exact hs
    · dsimp only at hr
      split at hr
      · exact ih _ _ _ _ hr (h _ _ hs)
      · exact ih _ _ _ _ hr (h _ _ hs)) s w c r hr
  exact this hs

/-- An analysis that does the same and keeps more. -/
theorem drain_sim {A : Analysis S ι} {A' : Analysis S' ι} {p : S' → S}
    (hsucc : ∀ i s, A'.succs i s = A.succs i (p s))
    (hv : ∀ i s, p (A'.visit i s).1 = (A.visit i (p s)).1)
    (hc : ∀ i s, (A'.visit i s).2 = (A.visit i (p s)).2)
    {x : S} {w : Work ι} {c : Bool} {r : S × Work ι × Bool} (hr : drain A x w c = some r) :
    ∀ s, p s = x → ∃ s', drain A' s w c = some (s', r.2) ∧ p s' = r.1 := by
  refine drain.partial_correctness A (fun x w c r => ∀ s, p s = x →
    ∃ s', drain A' s w c = some (s', r.2) ∧ p s' = r.1) ?_ x w c r hr
  intro g ih x w c r hr s hs
  split at hr
  · rename_i hq
    cases hr
    exact ⟨s, drain_nil _ _ _ _ hq, hs⟩
  · rename_i top rest hq
    dsimp only at hr
    rw [drain_cons _ _ _ _ hq, hc, hs]
    have hvs : p (A'.visit top s).1 = (A.visit top x).1 := by rw [hv, hs]
    rw [hsucc, hvs]
    split at hr
    · rename_i hch
      rw [if_pos hch]
      exact ih _ _ _ _ hr _ hvs
    · rename_i hch
      rw [if_neg hch]
      exact ih _ _ _ _ hr _ hvs

/-- With one initialisation, the result is that of the first round. -/
theorem run_of_drain {A : Analysis S ι} (hinit : A.init false = []) {s s' : S} {c : Bool}
    (h : drain A s (enqueueAll Work.empty (A.init true)) false = some (s', Work.empty, c)) :
    run A s = some s' := by
  unfold run
  rw [runFrom, runOnce, h]
  dsimp only
  cases c with
  | false => rfl
  | true =>
    rw [if_pos rfl, runFrom, runOnce, hinit]
    have : drain A s' (enqueueAll Work.empty []) false = some (s', Work.empty, false) :=
      drain_nil _ _ _ _ rfl
    rw [this]
    rfl

/-- What a visit establishes, and each change leads to be visited again, holds at the end. -/
theorem drain_settles {A : Analysis S ι} {Dom : ι → Prop} {Inv : S → Prop} {lt : S → S → Prop}
    {Echo : ι → Prop} (H : Converges A Dom Inv lt Echo) {P : S → ι → Prop} {Leads : ι → ι → Prop}
    (after : ∀ i s, Dom i → Inv s → P (A.visit i s).1 i)
    (keep : ∀ i s j, Dom i → Dom j → Inv s → (A.visit i s).2 = true → j ≠ i → P s j →
      P (A.visit i s).1 j ∨ ∃ k ∈ A.succs i (A.visit i s).1, k = j ∨ Leads k j)
    (lead : ∀ k j s, Inv s → Leads k j → (A.visit k s).2 = true ∧ j ∈ A.succs k (A.visit k s).1)
    {s : S} {w : Work ι} {c : Bool} {r : S × Work ι × Bool} (hr : drain A s w c = some r)
    {T : ι → Prop} (hT : ∀ i, T i → Dom i) (hok : Ok w) (hn : w.queue.Nodup)
    (hD : ∀ i ∈ w.queue, Dom i) (hinv : Inv s)
    (h : ∀ i, T i → P s i ∨ ∃ k ∈ w.queue, k = i ∨ Leads k i) : ∀ i, T i → P r.1 i := by
  refine drain.partial_correctness A (fun s w c r => Ok w → w.queue.Nodup →
    (∀ i ∈ w.queue, Dom i) → Inv s → (∀ i, T i → P s i ∨ ∃ k ∈ w.queue, k = i ∨ Leads k i) →
    ∀ i, T i → P r.1 i) ?_ s w c r hr hok hn hD hinv h
  intro g ih s w c r hr hok hn hD hinv h
  split at hr
  · rename_i hq
    cases hr
    intro i hi
    rcases h i hi with h | ⟨k, hk, _⟩
    · exact h
    · rw [hq] at hk; cases hk
  · rename_i top rest hq
    dsimp only at hr
    have hok' := ok_pop hok hn hq
    have hn' : rest.Nodup := by rw [hq] at hn; exact (List.nodup_cons.1 hn).2
    have hDt : Dom top := hD top (by rw [hq]; simp)
    have hDr : ∀ i ∈ rest, Dom i := fun i hi => hD i (by rw [hq]; simp [hi])
    have hinv' := H.inv top s hDt hinv
    split at hr
    · rename_i hch
      obtain ⟨e1, e2⟩ := enqueueAll_spec hok' (A.succs top (A.visit top s).1)
      refine ih _ _ _ _ hr e1 (enqueueAll_nodup hok' hn' _) ?_ hinv' ?_
      · intro i hi
        rcases (e2 i).1 hi with hi | hi
        · exact hDr i hi
        · exact H.succs top _ hDt hinv' i hi
      · intro i hi
        by_cases hit : i = top
        · subst hit
          exact Or.inl (after i s hDt hinv)
        · rcases h i hi with h | ⟨k, hk, hki⟩
          · rcases keep top s i hDt (hT i hi) hinv hch hit h with h | ⟨k, hk, hki⟩
            · exact Or.inl h
            · exact Or.inr ⟨k, (e2 k).2 (Or.inr hk), hki⟩
          · rw [hq] at hk
            rcases List.mem_cons.1 hk with rfl | hk
            · rcases hki with rfl | hki
              · exact absurd rfl hit
              · exact Or.inr ⟨i, (e2 i).2 (Or.inr (lead k i s hinv hki).2), Or.inl rfl⟩
            · exact Or.inr ⟨k, (e2 k).2 (Or.inl hk), hki⟩
    · rename_i hch
      have hch : (A.visit top s).2 = false := by simpa using hch
      have hst := H.fixed top s hDt hinv hch
      refine ih _ _ _ _ hr hok' hn' hDr hinv' ?_
      intro i hi
      by_cases hit : i = top
      · subst hit
        exact Or.inl (after i s hDt hinv)
      · rcases h i hi with h | ⟨k, hk, hki⟩
        · rw [hst]; exact Or.inl h
        · rw [hq] at hk
          rcases List.mem_cons.1 hk with rfl | hk
          · rcases hki with rfl | hki
            · exact absurd rfl hit
            · have := (lead k i s hinv hki).1
              rw [hch] at this
              exact absurd this (by simp)
          · exact Or.inr ⟨k, hk, hki⟩

/-- The engine with a bound on its steps, for runs on examples. -/
def drainN (A : Analysis S ι) : Nat → S → List ι → Option S
  | _, s, [] => some s
  | 0, _, _ => none
  | n + 1, s, top :: rest =>
    if (A.visit top s).2 then
      drainN A n (A.visit top s).1
        ((A.succs top (A.visit top s).1).foldl (fun q i => if i ∈ q then q else q ++ [i]) rest)
    else drainN A n (A.visit top s).1 rest

theorem enqueueAll_queue {w : Work ι} (h : Ok w) (is : List ι) :
    (enqueueAll w is).queue = is.foldl (fun q i => if i ∈ q then q else q ++ [i]) w.queue := by
  induction is generalizing w with
  | nil => rfl
  | cons i is ih =>
    have : enqueueAll w (i :: is) = enqueueAll (enqueue w i) is := rfl
    rw [this, ih (enqueue_spec h i).1, List.foldl_cons]
    congr 1
    unfold enqueue
    by_cases hi : w.on i = true
    · rw [if_pos hi, if_pos ((h i).1 hi)]
    · rw [if_neg hi, if_neg (fun h' => hi ((h i).2 h'))]

theorem drain_of_drainN {A : Analysis S ι} : ∀ (n : Nat) {s : S} {w : Work ι} {c : Bool} {r : S},
    Ok w → w.queue.Nodup → drainN A n s w.queue = some r →
    ∃ c', drain A s w c = some (r, Work.empty, c') := by
  intro n
  induction n with
  | zero =>
    intro s w c r hok hn h
    cases hq : w.queue with
    | nil =>
      rw [hq] at h
      simp only [drainN, Option.some.injEq] at h
      subst h
      rw [drain_nil _ _ _ _ hq, work_empty_of hok hq]
      exact ⟨c, rfl⟩
    | cons top rest => rw [hq] at h; simp [drainN] at h
  | succ n ih =>
    intro s w c r hok hn h
    cases hq : w.queue with
    | nil =>
      rw [hq] at h
      simp only [drainN, Option.some.injEq] at h
      subst h
      rw [drain_nil _ _ _ _ hq, work_empty_of hok hq]
      exact ⟨c, rfl⟩
    | cons top rest =>
      have hok' := ok_pop hok hn hq
      have hn' : rest.Nodup := by rw [hq] at hn; exact (List.nodup_cons.1 hn).2
      rw [hq] at h
      simp only [drainN] at h
      rw [drain_cons _ _ _ _ hq]
      split at h
      · rename_i hch
        rw [if_pos hch]
        refine ih (enqueueAll_spec hok' _).1 (enqueueAll_nodup hok' hn' _) ?_
        rw [enqueueAll_queue hok']
        exact h
      · rename_i hch
        rw [if_neg hch]
        exact ih hok' hn' h

theorem run_of_drainN {A : Analysis S ι} (hinit : A.init false = []) {n : Nat} {s r : S}
    (h : drainN A n s ((A.init true).foldl (fun q i => if i ∈ q then q else q ++ [i]) []) =
      some r) : run A s = some r := by
  have hok := enqueueAll_spec (ok_empty (ι := ι)) (A.init true)
  obtain ⟨c', hd⟩ := drain_of_drainN (c := false) n hok.1
    (enqueueAll_nodup ok_empty (by simp [Work.empty]) _) (by rw [enqueueAll_queue ok_empty]; exact h)
  exact run_of_drain hinit hd

end Verif.DataFlow
