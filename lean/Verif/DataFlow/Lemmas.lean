import Verif.DataFlow.Model
import Verif.Cfa.Spec

set_option linter.unusedSimpArgs false
set_option linter.unusedVariables false
set_option linter.unusedSectionVars false

namespace Verif.DataFlow

variable {S ι : Type} [DecidableEq ι]

namespace Spec

/-- The requirements under which the engine converges. `lt` is any well-founded order in
which the analysis state decreases: for facts in a lattice of finite height, "some fact
moved up". `Inv` is an invariant of the states, `Dom` the instructions of interest. `Echo`
are the instructions that may report a change without one (for instance terminators in
lint/divergence_analysis.cpp:103-106); they must not enqueue each other, or be enqueued anew in
every round. -/
structure Converges (A : Analysis S ι) (Dom : ι → Prop) (Inv : S → Prop) (lt : S → S → Prop)
    (Echo : ι → Prop) : Prop where
  wf : WellFounded lt
  init : ∀ b, ∀ i ∈ A.init b, Dom i
  succs : ∀ i s, Dom i → Inv s → ∀ j ∈ A.succs i s, Dom j
  inv : ∀ i s, Dom i → Inv s → Inv (A.visit i s).1
  fixed : ∀ i s, Dom i → Inv s → (A.visit i s).2 = false → (A.visit i s).1 = s
  changed : ∀ i s, Dom i → Inv s → (A.visit i s).2 = true →
    lt (A.visit i s).1 s ∨
      ((A.visit i s).1 = s ∧ Echo i ∧ ∀ j ∈ A.succs i s, ¬ Echo j)
  again : ∀ i ∈ A.init false, ¬ Echo i

/-- Visiting the instruction again would change nothing. -/
def Stable (A : Analysis S ι) (s : S) (i : ι) : Prop := (A.visit i s).1 = s

/-- `EnqueueSuccessors` is complete: whatever ceases to be stable by a change is enqueued. -/
def Complete (A : Analysis S ι) (Dom : ι → Prop) (Inv : S → Prop) : Prop :=
  ∀ i s, Dom i → Inv s → (A.visit i s).2 = true →
    ∀ j, Dom j → (j = i ∨ Stable A s j) →
      Stable A (A.visit i s).1 j ∨ j ∈ A.succs i (A.visit i s).1

end Spec

open Spec

/-! ## the work list -/

def Ok (w : Work ι) : Prop := ∀ i, w.on i = true ↔ i ∈ w.queue

theorem ok_empty : Ok (Work.empty : Work ι) := by intro i; simp [Work.empty]

theorem enqueue_spec {w : Work ι} (h : Ok w) (i : ι) :
    Ok (enqueue w i) ∧ ∀ j, j ∈ (enqueue w i).queue ↔ j ∈ w.queue ∨ j = i := by
  unfold enqueue
  split
  · rename_i hi
    have := (h i).mp hi
    refine ⟨h, fun j => ⟨Or.inl, ?_⟩⟩
    rintro (h | rfl)
    · exact h
    · exact this
  · refine ⟨?_, ?_⟩
    · intro j
      dsimp only
      by_cases hj : j = i
      · simp [hj]
      · rw [if_neg hj, h j]; simp [hj]
    · intro j; simp

theorem enqueueAll_spec {w : Work ι} (h : Ok w) (is : List ι) :
    Ok (enqueueAll w is) ∧ ∀ j, j ∈ (enqueueAll w is).queue ↔ j ∈ w.queue ∨ j ∈ is := by
  induction is generalizing w with
  | nil => simp [enqueueAll, h]
  | cons i is ih =>
    obtain ⟨h1, h2⟩ := enqueue_spec h i
    obtain ⟨h3, h4⟩ := ih h1
    refine ⟨h3, fun j => ?_⟩
    have : enqueueAll w (i :: is) = enqueueAll (enqueue w i) is := rfl
    rw [this, h4, h2, List.mem_cons, or_assoc]

theorem enqueue_nodup {w : Work ι} (h : Ok w) (hn : w.queue.Nodup) (i : ι) :
    (enqueue w i).queue.Nodup := by
  unfold enqueue
  split
  · exact hn
  · rename_i hi
    have : i ∉ w.queue := fun h' => hi ((h i).mpr h')
    rw [List.nodup_append]
    refine ⟨hn, by simp, ?_⟩
    intro a ha b hb
    simp only [List.mem_singleton] at hb
    intro e; subst e; subst hb; exact this ha

theorem enqueueAll_nodup {w : Work ι} (h : Ok w) (hn : w.queue.Nodup) (is : List ι) :
    (enqueueAll w is).queue.Nodup := by
  induction is generalizing w with
  | nil => exact hn
  | cons i is ih => exact ih (enqueue_spec h i).1 (enqueue_nodup h hn i)

/-- Popping the front. -/
theorem ok_pop {w : Work ι} (h : Ok w) (hn : w.queue.Nodup) {i : ι} {q : List ι}
    (hq : w.queue = i :: q) :
    Ok (⟨q, fun j => if j = i then false else w.on j⟩ : Work ι) := by
  rw [hq, List.nodup_cons] at hn
  intro j
  dsimp only
  by_cases hj : j = i
  · subst hj; simp [hn.1]
  · rw [if_neg hj, h j, hq]; simp [hj]

open Classical in
noncomputable def echoes (Echo : ι → Prop) (q : List ι) : Nat := q.countP fun i => decide (Echo i)

/-! ## termination -/

open Classical in
theorem echoes_enqueueAll {Echo : ι → Prop} (w : Work ι) (is : List ι)
    (h : ∀ i ∈ is, ¬ Echo i) : echoes Echo (enqueueAll w is).queue = echoes Echo w.queue := by
  induction is generalizing w with
  | nil => rfl
  | cons i is ih =>
    have : enqueueAll w (i :: is) = enqueueAll (enqueue w i) is := rfl
    rw [this, ih _ (fun j hj => h j (List.mem_cons_of_mem _ hj))]
    unfold enqueue
    split
    · rfl
    · unfold echoes
      dsimp only
      rw [List.countP_append]
      have := h i List.mem_cons_self
      simp [this]

variable {A : Analysis S ι} {Dom : ι → Prop} {Inv : S → Prop} {lt : S → S → Prop}
  {Echo : ι → Prop}

theorem drain_nil (A : Analysis S ι) (s : S) (w : Work ι) (c : Bool) (h : w.queue = []) :
    drain A s w c = some (s, w, c) := by
  rw [drain, h]

theorem drain_cons (A : Analysis S ι) (s : S) (w : Work ι) (c : Bool) {i : ι} {q : List ι}
    (h : w.queue = i :: q) :
    drain A s w c =
      if (A.visit i s).2 then
        drain A (A.visit i s).1 (enqueueAll ⟨q, fun j => if j = i then false else w.on j⟩
          (A.succs i (A.visit i s).1)) true
      else drain A (A.visit i s).1 ⟨q, fun j => if j = i then false else w.on j⟩ c := by
  rw [drain, h]

/-- What a drain of the work list achieves: everything in the queue ends up stable, or the
state has moved. -/
structure Drained (A : Analysis S ι) (Inv : S → Prop) (lt : S → S → Prop) (Echo : ι → Prop)
    (s : S) (w : Work ι) (c : Bool) (s' : S) (w' : Work ι) (c' : Bool) : Prop where
  inv : Inv s'
  empty : w'.queue = []
  ok : Ok w'
  moved : s' = s ∨ Relation.TransGen lt s' s
  flag : c' = true → c = true ∨ Relation.TransGen lt s' s ∨ ∃ i ∈ w.queue, Echo i
  still : c' = false → c = false ∧ s' = s ∧ ∀ i ∈ w.queue, (A.visit i s').1 = s'

theorem drain_spec (H : Converges A Dom Inv lt Echo) (s : S) :
    Inv s → ∀ (w : Work ι) (c : Bool), Ok w → w.queue.Nodup → (∀ i ∈ w.queue, Dom i) →
      ∃ s' w' c', drain A s w c = some (s', w', c') ∧ Drained A Inv lt Echo s w c s' w' c' := by
  induction s using H.wf.induction with
  | _ s ihs =>
    intro hinv w
    -- lexicographic: echoes in the queue, then its length
    generalize hk : echoes Echo w.queue = k
    induction k using Nat.strongRecOn generalizing w with
    | _ k ihk =>
      generalize hn : w.queue.length = n
      induction n generalizing w k with
      | zero =>
        intro c hok _ hdom
        have hq : w.queue = [] := List.length_eq_zero_iff.mp hn
        refine ⟨s, w, c, drain_nil A s w c hq, hinv, hq, hok, Or.inl rfl, Or.inl, ?_⟩
        intro hc; exact ⟨hc, rfl, by rw [hq]; simp⟩
      | succ n ihn =>
        intro c hok hnd hdom
        cases hq : w.queue with
        | nil => rw [hq] at hn; simp at hn
        | cons i q =>
          rw [drain_cons A s w c hq]
          have hi : Dom i := hdom i (by rw [hq]; exact List.mem_cons_self)
          have hpop := ok_pop hok hnd hq
          have hnd' : q.Nodup := by rw [hq, List.nodup_cons] at hnd; exact hnd.2
          have hdom' : ∀ j ∈ q, Dom j := fun j hj => hdom j (by rw [hq]; exact List.mem_cons_of_mem _ hj)
          have hinv' := H.inv i s hi hinv
          cases hv : (A.visit i s).2 with
          | true =>
            rw [if_pos rfl]
            have hok2 := enqueueAll_spec hpop (A.succs i (A.visit i s).1)
            have hnd2 := enqueueAll_nodup hpop hnd' (A.succs i (A.visit i s).1)
            have hdom2 : ∀ j ∈ (enqueueAll (⟨q, fun j => if j = i then false else w.on j⟩ : Work ι)
                (A.succs i (A.visit i s).1)).queue, Dom j := by
              intro j hj
              rcases (hok2.2 j).mp hj with hj | hj
              · exact hdom' j hj
              · exact H.succs i _ hi hinv' j hj
            rcases H.changed i s hi hinv hv with hlt | ⟨heq, hecho, hno⟩
            · obtain ⟨s', w', c', h1, h2⟩ := ihs _ hlt hinv' _ true hok2.1 hnd2 hdom2
              have hmv : Relation.TransGen lt s' s := by
                rcases h2.moved with h | h
                · rw [h]; exact Relation.TransGen.single hlt
                · exact Relation.TransGen.tail h hlt
              exact ⟨s', w', c', h1, h2.inv, h2.empty, h2.ok, Or.inr hmv,
                fun _ => Or.inr (Or.inl hmv), fun hc => absurd (h2.still hc).1 (by simp)⟩
            · rw [heq] at hok2 hnd2 hdom2 ⊢
              have hlt : echoes Echo (enqueueAll (⟨q, fun j => if j = i then false else w.on j⟩ : Work ι)
                  (A.succs i s)).queue < k := by
                rw [echoes_enqueueAll _ _ hno, ← hk, hq]
                unfold echoes
                rw [List.countP_cons_of_pos (by simpa using hecho)]
                exact Nat.lt_succ_self _
              obtain ⟨s', w', c', h1, h2⟩ := ihk _ hlt _ rfl true hok2.1 hnd2 hdom2
              refine ⟨s', w', c', h1, h2.inv, h2.empty, h2.ok, h2.moved,
                fun _ => Or.inr (Or.inr ⟨i, by rw [hq]; exact List.mem_cons_self, hecho⟩), fun hc => absurd (h2.still hc).1 (by simp)⟩
          | false =>
            rw [if_neg (by simp)]
            have heq := H.fixed i s hi hinv hv
            rw [heq]
            have hle : echoes Echo q ≤ k := by
              rw [← hk, hq]
              unfold echoes
              exact (List.sublist_cons_self i q).countP_le
            have hlen : q.length = n := by rw [hq] at hn; simpa using hn
            have : ∃ s' w' c', drain A s (⟨q, fun j => if j = i then false else w.on j⟩ : Work ι) c =
                some (s', w', c') ∧
                Drained A Inv lt Echo s ⟨q, fun j => if j = i then false else w.on j⟩ c s' w' c' := by
              rcases Nat.lt_or_ge (echoes Echo q) k with hlt | hge
              · exact ihk _ hlt _ rfl c hpop hnd' hdom'
              · have hke : echoes Echo q = k := Nat.le_antisymm hle hge
                exact ihn k ihk (⟨q, fun j => if j = i then false else w.on j⟩ : Work ι)
                  hke hlen c hpop hnd' hdom'
            obtain ⟨s', w', c', h1, h2⟩ := this
            refine ⟨s', w', c', h1, h2.inv, h2.empty, h2.ok, h2.moved, ?_, ?_⟩
            · intro hc
              rcases h2.flag hc with h | h | ⟨j, hj, he⟩
              · exact Or.inl h
              · exact Or.inr (Or.inl h)
              · exact Or.inr (Or.inr ⟨j, by rw [hq]; exact List.mem_cons_of_mem _ hj, he⟩)
            · intro hc
              obtain ⟨h3, h4, h5⟩ := h2.still hc
              refine ⟨h3, h4, fun j hj => ?_⟩
              rw [hq] at hj
              rcases List.mem_cons.mp hj with rfl | hj
              · rw [h4]; exact heq
              · exact h5 j hj

theorem work_empty_of {w : Work ι} (hok : Ok w) (h : w.queue = []) : w = Work.empty := by
  cases w with
  | mk q on =>
    dsimp only at h
    subst h
    unfold Work.empty
    congr 1
    funext i
    have := hok i
    simp at this
    exact this

theorem runOnce_spec (H : Converges A Dom Inv lt Echo) {s : S} (hinv : Inv s) (first : Bool) :
    ∃ s' c', runOnce A s Work.empty first = some (s', Work.empty, c') ∧ Inv s' ∧
      (s' = s ∨ Relation.TransGen lt s' s) ∧
      (c' = true → Relation.TransGen lt s' s ∨ ∃ i ∈ A.init first, Echo i) ∧
      (c' = false → s' = s ∧ ∀ i ∈ A.init first, Stable A s' i) := by
  have hok := enqueueAll_spec (ok_empty (ι := ι)) (A.init first)
  have hmem : ∀ i, i ∈ (enqueueAll Work.empty (A.init first)).queue ↔ i ∈ A.init first := by
    intro i; rw [hok.2]; simp [Work.empty]
  obtain ⟨s', w', c', h1, h2⟩ := drain_spec H s hinv (enqueueAll Work.empty (A.init first)) false
    hok.1 (enqueueAll_nodup ok_empty (by simp [Work.empty]) _)
    (fun i hi => H.init first i ((hmem i).mp hi))
  refine ⟨s', c', ?_, h2.inv, h2.moved, ?_, ?_⟩
  · unfold runOnce
    rw [h1, work_empty_of h2.ok h2.empty]
  · intro hc
    rcases h2.flag hc with h | h | ⟨i, hi, he⟩
    · cases h
    · exact Or.inl h
    · exact Or.inr ⟨i, (hmem i).mp hi, he⟩
  · intro hc
    obtain ⟨_, h4, h5⟩ := h2.still hc
    exact ⟨h4, fun i hi => h5 i ((hmem i).mpr hi)⟩

theorem runAgain_spec (H : Converges A Dom Inv lt Echo) {s : S} (hinv : Inv s) :
    ∃ s', runFrom A s Work.empty false = some s' ∧ Inv s' ∧
      (∀ i ∈ A.init false, Stable A s' i) := by
  induction s using H.wf.transGen.induction with
  | _ s ih =>
    obtain ⟨s', c', h1, h2, _, h4, h5⟩ := runOnce_spec H hinv false
    rw [runFrom, h1]
    dsimp only
    cases c' with
    | false => exact ⟨s', rfl, h2, (h5 rfl).2⟩
    | true =>
      rcases h4 rfl with h | ⟨i, hi, he⟩
      · obtain ⟨s'', h6, h7, h8⟩ := ih s' h h2
        exact ⟨s'', h6, h7, h8⟩
      · exact absurd he (H.again i hi)

/-! ## complete successor lists -/

theorem drain_stable (H : Converges A Dom Inv lt Echo) (hcomp : Complete A Dom Inv)
    (W : ι → Prop) (hW : ∀ i, W i → Dom i) (s : S) : Inv s → ∀ (w : Work ι) (c : Bool), Ok w → w.queue.Nodup → (∀ i ∈ w.queue, Dom i) →
      (∀ i, W i → Stable A s i ∨ i ∈ w.queue) →
      ∀ s' w' c', drain A s w c = some (s', w', c') → ∀ i, W i → Stable A s' i := by
  induction s using H.wf.induction with
  | _ s ihs =>
    intro hinv w
    generalize hk : echoes Echo w.queue = k
    induction k using Nat.strongRecOn generalizing w with
    | _ k ihk =>
      generalize hn : w.queue.length = n
      induction n generalizing w k with
      | zero =>
        intro c hok _ hdom hst s' w' c' h i hi
        have hq : w.queue = [] := List.length_eq_zero_iff.mp hn
        rw [drain_nil A s w c hq] at h
        cases h
        exact (hst i hi).resolve_right (by rw [hq]; simp)
      | succ n ihn =>
        intro c hok hnd hdom hst s' w' c' h
        cases hq : w.queue with
        | nil => rw [hq] at hn; simp at hn
        | cons i q =>
          rw [drain_cons A s w c hq] at h
          have hi : Dom i := hdom i (by rw [hq]; exact List.mem_cons_self)
          have hpop := ok_pop hok hnd hq
          have hnd' : q.Nodup := by rw [hq, List.nodup_cons] at hnd; exact hnd.2
          have hdom' : ∀ j ∈ q, Dom j := fun j hj => hdom j (by rw [hq]; exact List.mem_cons_of_mem _ hj)
          have hinv' := H.inv i s hi hinv
          have hst' : ∀ j, W j → (j = i ∨ Stable A s j) ∨ j ∈ q := by
            intro j hj
            rcases hst j hj with h | h
            · exact Or.inl (Or.inr h)
            · rw [hq] at h
              rcases List.mem_cons.mp h with h | h
              · exact Or.inl (Or.inl h)
              · exact Or.inr h
          cases hv : (A.visit i s).2 with
          | true =>
            rw [hv, if_pos rfl] at h
            have hok2 := enqueueAll_spec hpop (A.succs i (A.visit i s).1)
            have hnd2 := enqueueAll_nodup hpop hnd' (A.succs i (A.visit i s).1)
            have hdom2 : ∀ j ∈ (enqueueAll (⟨q, fun j => if j = i then false else w.on j⟩ : Work ι)
                (A.succs i (A.visit i s).1)).queue, Dom j := by
              intro j hj
              rcases (hok2.2 j).mp hj with hj | hj
              · exact hdom' j hj
              · exact H.succs i _ hi hinv' j hj
            have hst2 : ∀ j, W j → Stable A (A.visit i s).1 j ∨
                j ∈ (enqueueAll (⟨q, fun j => if j = i then false else w.on j⟩ : Work ι)
                (A.succs i (A.visit i s).1)).queue := by
              intro j hj
              rcases hst' j hj with h' | h'
              · rcases hcomp i s hi hinv hv j (hW j hj) h' with h' | h'
                · exact Or.inl h'
                · exact Or.inr ((hok2.2 j).mpr (Or.inr h'))
              · exact Or.inr ((hok2.2 j).mpr (Or.inl h'))
            rcases H.changed i s hi hinv hv with hlt | ⟨heq, hecho, hno⟩
            · exact ihs _ hlt hinv' _ true hok2.1 hnd2 hdom2 hst2 s' w' c' h
            · rw [heq] at hok2 hnd2 hdom2 hst2 h
              have hlt : echoes Echo (enqueueAll (⟨q, fun j => if j = i then false else w.on j⟩ : Work ι)
                  (A.succs i s)).queue < k := by
                rw [echoes_enqueueAll _ _ hno, ← hk, hq]
                unfold echoes
                rw [List.countP_cons_of_pos (by simpa using hecho)]
                exact Nat.lt_succ_self _
              exact ihk _ hlt _ rfl true hok2.1 hnd2 hdom2 hst2 s' w' c' h
          | false =>
            rw [hv, if_neg (by simp)] at h
            have heq := H.fixed i s hi hinv hv
            rw [heq] at h
            have hst2 : ∀ j, W j → Stable A s j ∨ j ∈ q := by
              intro j hj
              rcases hst' j hj with (rfl | h') | h'
              · exact Or.inl heq
              · exact Or.inl h'
              · exact Or.inr h'
            have hle : echoes Echo q ≤ k := by
              rw [← hk, hq]
              unfold echoes
              exact (List.sublist_cons_self i q).countP_le
            have hlen : q.length = n := by rw [hq] at hn; simpa using hn
            rcases Nat.lt_or_ge (echoes Echo q) k with hlt | hge
            · exact ihk _ hlt (⟨q, fun j => if j = i then false else w.on j⟩ : Work ι) rfl c hpop hnd'
                hdom' hst2 s' w' c' h
            · have hke : echoes Echo q = k := Nat.le_antisymm hle hge
              exact ihn k ihk (⟨q, fun j => if j = i then false else w.on j⟩ : Work ι)
                hke hlen c hpop hnd' hdom' hst2 s' w' c' h

theorem runOnce_stable (H : Converges A Dom Inv lt Echo) (hcomp : Complete A Dom Inv)
    (W : ι → Prop) (hW : ∀ i, W i → Dom i) {s : S} (hinv : Inv s) (first : Bool)
    (hst : ∀ i, W i → Stable A s i ∨ i ∈ A.init first) {s' w' c'}
    (h : runOnce A s Work.empty first = some (s', w', c')) : ∀ i, W i → Stable A s' i := by
  have hok := enqueueAll_spec (ok_empty (ι := ι)) (A.init first)
  have hmem : ∀ i, i ∈ (enqueueAll Work.empty (A.init first)).queue ↔ i ∈ A.init first := by
    intro i; rw [hok.2]; simp [Work.empty]
  exact drain_stable H hcomp W hW s hinv _ false hok.1
    (enqueueAll_nodup ok_empty (by simp [Work.empty]) _)
    (fun i hi => H.init first i ((hmem i).mp hi))
    (fun i hi => (hst i hi).imp id (fun h => (hmem i).mpr h)) s' w' c' h

theorem runAgain_stable (H : Converges A Dom Inv lt Echo) (hcomp : Complete A Dom Inv)
    (W : ι → Prop) (hW : ∀ i, W i → Dom i) {s : S} (hinv : Inv s)
    (hst : ∀ i, W i → Stable A s i) {s' : S}
    (h : runFrom A s Work.empty false = some s') : ∀ i, W i → Stable A s' i := by
  induction s using H.wf.transGen.induction with
  | _ s ih =>
    obtain ⟨s1, c', h1, h2, _, h4, h5⟩ := runOnce_spec H hinv false
    have hs1 := runOnce_stable H hcomp W hW hinv false (fun i hi => Or.inl (hst i hi)) h1
    rw [runFrom, h1] at h
    dsimp only at h
    cases c' with
    | false => cases h; exact hs1
    | true =>
      rcases h4 rfl with h' | ⟨i, hi, he⟩
      · exact ih s1 h' h2 hs1 h
      · exact absurd he (H.again i hi)

end Verif.DataFlow
