import Verif.SsaExec.Spec
set_option linter.unusedSimpArgs false
set_option linter.unusedVariables false
set_option linter.unusedSectionVars false
/-!
# Dominance along executions
-/
namespace Verif.SsaExec
variable {I B V M : Type} [DecidableEq I] {P : Code I B} {S : Sem I B V M} {G : I → Prop}

theorem Trail.drop {l1 : List I} {x l2} (h : Trail P (l1 ++ x :: l2)) : Trail P (x :: l2) := by
  induction l1 with
  | nil => exact h
  | cons y l1 ih =>
    apply ih
    cases hl : l1 ++ x :: l2 with
    | nil => simp at hl
    | cons z l =>
      rw [List.cons_append, hl] at h
      cases h with
      | next h _ => exact h

theorem Trail.splice {l1 : List I} {x l2 l3} (h : Trail P (l1 ++ x :: l2)) (h' : Trail P (x :: l3)) :
    Trail P (l1 ++ x :: l3) := by
  induction l1 with
  | nil => exact h'
  | cons y l1 ih =>
    have e : ∃ z l, l1 ++ x :: l2 = z :: l ∧ ∃ l', l1 ++ x :: l3 = z :: l' := by
      cases l1 with
      | nil => exact ⟨x, l2, rfl, l3, rfl⟩
      | cons z l => exact ⟨z, _, rfl, _, rfl⟩
    obtain ⟨z, l, e1, l', e2⟩ := e
    rw [List.cons_append, e1] at h
    cases h with
    | next h he =>
      rw [← e1] at h
      have := ih h
      rw [List.cons_append, e2]
      rw [e2] at this
      exact .next this he

/-- The oldest occurrence. -/
theorem oldest {l : List I} {x} (h : x ∈ l) : ∃ l1 l2, l = l1 ++ x :: l2 ∧ x ∉ l2 := by
  induction l with
  | nil => cases h
  | cons y l ih =>
    by_cases hx : x ∈ l
    · obtain ⟨l1, l2, e, hn⟩ := ih hx
      exact ⟨y :: l1, l2, by simp [e], hn⟩
    · simp [hx] at h
      subst h
      exact ⟨[], l, rfl, hx⟩

/-- The newest occurrence. -/
theorem newest {l : List I} {x} (h : x ∈ l) : ∃ l1 l2, l = l1 ++ x :: l2 ∧ x ∉ l1 := by
  induction l with
  | nil => cases h
  | cons y l ih =>
    by_cases hx : x = y
    · subst hx
      exact ⟨[], l, rfl, by simp⟩
    · obtain ⟨l1, l2, e, hn⟩ := ih (by simpa [hx] using h)
      exact ⟨y :: l1, l2, by simp [e], by simp [hx, hn]⟩

/-- `d` was last executed after `e` was. -/
def After (h : List I) (d e : I) : Prop := ∃ l1 l2, h = l1 ++ d :: l2 ∧ d ∉ l1 ∧ e ∉ l1

theorem Dom.trans {e d u : I} (h1 : Dom P e d) (h2 : Dom P d u) : Dom P e u := by
  intro h ht
  obtain ⟨l1, l2, rfl, -⟩ := oldest (h2 h ht)
  have := h1 l2 (Trail.drop (l1 := u :: l1) ht)
  simp [this]

theorem dom_irrefl {d : I} {h} (ht : Trail P (d :: h)) (hd : Dom P d d) : False := by
  obtain ⟨l1, l2, e, hn⟩ := oldest (l := d :: h) (x := d) (by simp)
  rw [e] at ht
  exact hn (hd l2 ht.drop)

/-- When control is at `u`, a definition that dominates `u` was executed after all that dominates it. -/
theorem dom_after {u d e : I} {h : List I} (ht : Trail P (u :: h)) (hd : Dom P d u) (he : Dom P e d) :
    After h d e := by
  obtain ⟨l1, l2, rfl, hn⟩ := newest (hd h ht)
  refine ⟨l1, l2, rfl, hn, ?_⟩
  intro hm
  obtain ⟨m1, m2, rfl, -⟩ := newest hm
  obtain ⟨n1, n2, hnn, hne⟩ := oldest (l := (m1 ++ e :: m2) ++ d :: l2) (x := e) (by simp)
  have htn : Trail P (e :: n2) := by
    rw [hnn] at ht
    exact Trail.drop (l1 := u :: n1) ht
  have hd2 : d ∉ n2 := by
    intro hm2
    obtain ⟨q1, q2, rfl, -⟩ := newest hm2
    have h3 : Trail P (d :: q2) := Trail.drop (l1 := e :: q1) htn
    have := he q2 h3
    simp [this] at hne
  have h4 : Trail P ((u :: m1) ++ e :: n2) := by
    apply Trail.splice (l2 := m2 ++ d :: l2) _ htn
    simpa using ht
  have := hd (m1 ++ e :: n2) h4
  simp only [List.mem_append, List.mem_cons, not_or] at this hn
  rcases this with h5 | rfl | h5
  · exact hn.1 h5
  · exact hn.2.1 rfl
  · exact hd2 h5

theorem After.skip {q h : List I} {d e : I} (ha : After (q ++ h) d e) (hd : d ∉ q) : e ∉ q ∧ After h d e := by
  induction q with
  | nil => exact ⟨by simp, ha⟩
  | cons y q ih =>
    simp only [List.mem_cons, not_or] at hd
    obtain ⟨l1, l2, e1, h1, h2⟩ := ha
    cases l1 with
    | nil => simp at e1; exact absurd e1.1.symm hd.1
    | cons z l1 =>
      simp only [List.cons_append, List.cons.injEq] at e1
      obtain ⟨rfl, e1⟩ := e1
      simp only [List.mem_cons, not_or] at h1 h2
      obtain ⟨h3, h4⟩ := ih ⟨l1, l2, e1, h1.2, h2.2⟩ hd.2
      exact ⟨by simp [h2.1, h3], h4⟩

theorem After.mem {h : List I} {d e : I} (ha : After h d e) : d ∈ h := by
  obtain ⟨l1, l2, rfl, -⟩ := ha
  simp

/-- What was never executed is older than anything. -/
theorem after_absent {h : List I} {d e : I} (hd : d ∈ h) (he : e ∉ h) : After h d e := by
  obtain ⟨l1, l2, rfl, hn⟩ := newest hd
  exact ⟨l1, l2, rfl, hn, fun h => he (by simp [h])⟩

theorem trail_block {b : B} {q : List I} {z r l i h} (hb : P.body b = l ++ [i]) {b'} (hs : b' ∈ P.succs i)
    (ht : Trail P (i :: h)) (hq : P.all b' = q ++ z :: r) : Trail P (z :: (q.reverse ++ i :: h)) := by
  have : ∀ (q : List I) z r, P.all b' = q ++ z :: r → Trail P (z :: (q.reverse ++ i :: h)) := by
    intro q
    induction hn : q.length generalizing q with
    | zero =>
      intro z r hq
      have : q = [] := List.length_eq_zero_iff.mp hn
      subst this
      exact .next ht (.inr ⟨b, l, b', r, hb, hs, hq⟩)
    | succ n ih =>
      intro z r hq
      obtain ⟨q, y, rfl⟩ : ∃ q' y, q = q' ++ [y] := by
        refine ⟨q.dropLast, q.getLast (by intro h; simp [h] at hn), ?_⟩
        exact (List.dropLast_concat_getLast _).symm
      simp at hn
      have := ih q hn y (z :: r) (by simpa using hq)
      simp only [List.reverse_append, List.reverse_cons, List.reverse_nil, List.nil_append, List.cons_append]
      exact .next this (.inl ⟨b', q, r, by simpa using hq⟩)
  exact this q z r hq

/-- What holds at every point of an execution. -/
structure At (P : Code I B) (S : Sem I B V M) (c : Config I B V M) : Prop where
  here : ∃ u r, c.rest = u :: r ∧ Trail P (u :: c.hist)
  split : ∃ pre, P.body c.block = pre ++ c.rest
  defined : ∀ d ∈ c.hist, IsTerm P d ∨ c.env d ≠ none
  global : ∀ d, (S.start d ≠ none) → c.env d = S.start d
  inside : ∀ d ∈ c.hist, ∃ b, d ∈ P.all b

theorem at_reach (hv : Valid P fun d => S.start d ≠ none) {c : Config I B V M} (h : Reach P S c) : At P S c := by
  induction h with
  | start =>
    refine ⟨?_, ⟨[], rfl⟩, by simp [Start], fun _ _ => rfl, by simp [Start]⟩
    cases hb : P.body P.entry with
    | nil => exact absurd hb (hv.body_ne _)
    | cons u r => exact ⟨u, r, by simp [Start, hb], .first (by simp [Code.all, hv.entry_phis, hb]; rfl)⟩
  | @step c c' h hs ih =>
    obtain ⟨⟨u, r, hu, ht⟩, ⟨pre, hp⟩, hd, hg, hi⟩ := ih
    cases hs with
    | @act b i j r' env m h a x m' hr hact =>
      simp only [List.cons.injEq] at hu
      obtain ⟨rfl, rfl⟩ := hu
      simp only at *
      have hin : i ∈ P.all b := by simp [Code.all, hp]
      refine ⟨⟨j, r', rfl, .next ht (.inl ⟨b, P.phis b ++ pre, r', by simp [Code.all, hp]⟩)⟩,
        ⟨pre ++ [i], by simp [hp]⟩, ?_, ?_, ?_⟩
      · intro d hdm
        simp only [List.mem_cons] at hdm
        simp only [define]
        split
        · right; simp
        · rcases hdm with rfl | hdm
          · contradiction
          · exact hd d hdm
      · intro d hgd
        have : d ≠ i := by
          rintro rfl
          exact hv.inside b _ hin hgd
        simp [define, this, hg d hgd]
      · intro d hdm
        simp only [List.mem_cons] at hdm
        rcases hdm with rfl | hdm
        · exact ⟨b, hin⟩
        · exact hi d hdm
    | @jump b i env m h a b' env' hr hj hsu hph hot =>
      simp only [List.cons.injEq] at hu
      obtain ⟨rfl, rfl⟩ := hu
      simp only at *
      have hin : i ∈ P.all b := by simp [Code.all, hp]
      refine ⟨?_, ⟨[], rfl⟩, ?_, ?_, ?_⟩
      · cases hb : P.body b' with
        | nil => exact absurd hb (hv.body_ne _)
        | cons u r =>
          exact ⟨u, r, rfl, trail_block hp hsu ht (r := r) (by simp [Code.all, hb])⟩
      · intro d hdm
        simp only [List.mem_append, List.mem_reverse, List.mem_cons] at hdm
        by_cases hdp : d ∈ P.phis b'
        · obtain ⟨o, x, -, -, he⟩ := hph d hdp
          right; simp [he]
        · rcases hdm with hdm | rfl | hdm
          · contradiction
          · exact .inl ⟨b, pre, hp⟩
          · simp only [hot d hdp]
            exact hd d hdm
      · intro d hgd
        have : d ∉ P.phis b' := by
          intro hm
          exact hv.inside b' _ (by simp [Code.all, hm]) hgd
        simp only [hot d this, hg d hgd]
      · intro d hdm
        simp only [List.mem_append, List.mem_reverse, List.mem_cons] at hdm
        rcases hdm with hdm | rfl | hdm
        · exact ⟨b', by simp [Code.all, hdm]⟩
        · exact ⟨b, hin⟩
        · exact hi d hdm

/-- An id that dominates the current instruction has a value. -/
theorem At.value {c : Config I B V M} (h : At P S c) {u r d} (hu : c.rest = u :: r)
    (hd : S.start d ≠ none ∨ (Dom P d u ∧ ¬ IsTerm P d)) : ∃ x, c.env d = some x := by
  rcases hd with hd | ⟨hd, hn⟩
  · have := h.global d hd
    cases hs : S.start d with
    | none => contradiction
    | some x => exact ⟨x, by rw [this, hs]⟩
  · obtain ⟨u', r', hu', ht⟩ := h.here
    rw [hu] at hu'
    cases hu'
    rcases h.defined d (hd _ ht) with h1 | h1
    · contradiction
    · exact Option.ne_none_iff_exists'.mp h1

end Verif.SsaExec
