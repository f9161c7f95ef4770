import Verif.EnumSet.Lemmas

set_option linter.unusedSimpArgs false
set_option linter.unusedVariables false

/-! Helper lemmas: iteration, `HasAnyOf`, equality. -/
namespace Verif.EnumSet
open Verif.BitUtils

def bitAt (bs : List Bucket) (p : Nat) : Bool :=
  match bs[p / 64]? with
  | none => false
  | some b => b.data.getLsbD (p % 64)

def val (bs : List Bucket) (p : Nat) : Nat :=
  match bs[p / 64]? with
  | none => 0
  | some b => b.start + p % 64

theorem hasEnumAt_eq (s : ESet) (bi off : Nat) (hb : bi < s.buckets.length) (ho : off < 64) :
    hasEnumAt s bi off = some (bitAt s.buckets (64 * bi + off)) := by
  unfold hasEnumAt bitAt
  have h1 : (64 * bi + off) / 64 = bi := by omega
  have h2 : (64 * bi + off) % 64 = off := by omega
  rw [h1, h2, List.getElem?_eq_getElem hb]
  simp only [ho, if_true]
  rw [show ((s.buckets[bi].data &&& 1#64 <<< off) != 0) = _ from
    and_one_shl_ne_zero _ _ ho]

theorem next_spec (s : ESet) (bi off : Nat) (hb : bi < s.buckets.length) (ho : off < 64) :
    ∃ bi' off', next s bi off = some (bi', off') ∧ off' < 64 ∧
      ((bi' < s.buckets.length ∧ bitAt s.buckets (64 * bi' + off') = true) ∨
        (bi' = s.buckets.length ∧ off' = 0)) ∧
      64 * bi + off < 64 * bi' + off' ∧
      ∀ q, 64 * bi + off < q → q < 64 * bi' + off' → bitAt s.buckets q = false := by
  induction bi, off using next.induct s with
  | case1 bi off h => omega
  | case2 bi off h p hp hnone =>
    have : p.2 < 64 := by simp only [p]; split <;> simp; omega
    rw [hasEnumAt_eq s _ _ hp this] at hnone; simp at hnone
  | case3 bi off h p hp htrue =>
    have hp2 : p.2 < 64 := by simp only [p]; split <;> simp; omega
    have hpos : 64 * p.1 + p.2 = 64 * bi + off + 1 := by
      simp only [p]; split <;> simp <;> omega
    refine ⟨p.1, p.2, ?_, hp2, ?_, by omega, ?_⟩
    · have hpe : (if off + 1 = 64 then (bi + 1, 0) else (bi, off + 1)) = p := by simp [p]
      clear_value p
      rw [next, if_neg h]; simp only [hpe, hp, if_true, htrue]
    · left; refine ⟨hp, ?_⟩
      rw [hasEnumAt_eq s _ _ hp hp2] at htrue; simpa using htrue
    · intro q h1 h2; omega
  | case4 bi off h p hp hfalse ho' ih =>
    have hp2 : p.2 < 64 := by simp only [p]; split <;> simp; omega
    have hpos : 64 * p.1 + p.2 = 64 * bi + off + 1 := by
      simp only [p]; split <;> simp <;> omega
    obtain ⟨bi', off', e, h1, h2, h3, h4⟩ := ih hp hp2
    refine ⟨bi', off', ?_, h1, h2, by omega, ?_⟩
    · have hpe : (if off + 1 = 64 then (bi + 1, 0) else (bi, off + 1)) = p := by simp [p]
      clear_value p
      rw [next, if_neg h]; simp only [hpe, hp, if_true, hfalse, ho, e]
    · intro q hq1 hq2
      by_cases hq : q = 64 * bi + off + 1
      · rw [hasEnumAt_eq s _ _ hp hp2] at hfalse
        rw [hq, ← hpos]; simpa using hfalse
      · exact h4 q (by omega) hq2
  | case5 bi off h p hp hfalse ho' => omega
  | case6 bi off h p hp =>
    have hpos : 64 * p.1 + p.2 = 64 * bi + off + 1 := by
      simp only [p]; split <;> simp <;> omega
    have hp1 : p.1 = s.buckets.length ∧ p.2 = 0 := by
      simp only [p] at hp ⊢; split at hp
      · rename_i h64; simp [h64] at hp ⊢; omega
      · simp at hp; omega
    refine ⟨p.1, p.2, ?_, by omega, .inr hp1, by omega, ?_⟩
    · have hpe : (if off + 1 = 64 then (bi + 1, 0) else (bi, off + 1)) = p := by simp [p]
      clear_value p
      rw [next, if_neg h]; simp only [hpe, hp, if_false]
    · intro q h1 h2; omega

theorem val_lt (bs : List Bucket) (h : WF bs) (p q : Nat) (hpq : p < q) (hq : q < 64 * bs.length) :
    val bs p < val bs q := by
  unfold val
  rw [List.getElem?_eq_getElem (by omega : p / 64 < bs.length),
    List.getElem?_eq_getElem (by omega : q / 64 < bs.length)]
  simp only
  by_cases he : p / 64 = q / 64
  · simp only [he]; omega
  · have := List.pairwise_iff_getElem.mp h.sorted (p / 64) (q / 64) (by omega) (by omega) (by omega)
    have h1 := h.aligned _ (List.getElem_mem (show p / 64 < bs.length by omega))
    have h2 := h.aligned _ (List.getElem_mem (show q / 64 < bs.length by omega))
    omega

theorem collect_spec (s : ESet) (h : WF s.buckets) : ∀ n bi off, off < 64 →
    ((bi < s.buckets.length ∧ bitAt s.buckets (64 * bi + off) = true) ∨
        (bi = s.buckets.length ∧ off = 0)) →
    64 * s.buckets.length < n + (64 * bi + off) →
    ∃ l, collect s n (bi, off) = some l ∧ l.Pairwise (· < ·) ∧
      (∀ v, v ∈ l ↔ ∃ q, 64 * bi + off ≤ q ∧ q < 64 * s.buckets.length ∧
        bitAt s.buckets q = true ∧ val s.buckets q = v) := by
  intro n
  induction n with
  | zero => intro bi off ho hv hn; rcases hv with hv | hv <;> omega
  | succ n ih =>
    intro bi off ho hv hn
    rcases hv with ⟨hb, hbit⟩ | ⟨rfl, rfl⟩
    · have hne : ¬ ((bi, off) = (s.buckets.length, 0)) := by
        intro he; simp at he; omega
      obtain ⟨bi', off', e, h1, h2, h3, h4⟩ := next_spec s bi off hb ho
      have hd : deref s bi off = some (val s.buckets (64 * bi + off)) := by
        unfold deref val
        rw [hasEnumAt_eq s bi off hb ho, hbit]
        have e1 : (64 * bi + off) / 64 = bi := by omega
        have e2 : (64 * bi + off) % 64 = off := by omega
        simp only [e1, e2, List.getElem?_eq_getElem hb, Option.map_some, valueOf]
      obtain ⟨l, hl, hs, hm⟩ := ih bi' off' h1 h2 (by omega)
      refine ⟨val s.buckets (64 * bi + off) :: l, ?_, ?_, ?_⟩
      · simp only [collect, hne, if_false, hd, e, hl, Option.map_some]
      · rw [List.pairwise_cons]
        refine ⟨?_, hs⟩
        intro v hv
        obtain ⟨q, q1, q2, q3, rfl⟩ := (hm v).mp hv
        exact val_lt s.buckets h _ _ (by omega) q2
      · intro v
        rw [List.mem_cons, hm]
        constructor
        · rintro (rfl | ⟨q, q1, q2, q3, rfl⟩)
          · exact ⟨64 * bi + off, Nat.le_refl _, by omega, hbit, rfl⟩
          · exact ⟨q, by omega, q2, q3, rfl⟩
        · rintro ⟨q, q1, q2, q3, rfl⟩
          by_cases hq : q = 64 * bi + off
          · left; rw [hq]
          · right
            refine ⟨q, ?_, q2, q3, rfl⟩
            apply Classical.byContradiction
            intro hc
            have := h4 q (by omega) (by omega)
            rw [this] at q3; simp at q3
    · refine ⟨[], by simp [collect], List.Pairwise.nil, ?_⟩
      intro v
      simp only [List.not_mem_nil, false_iff]
      rintro ⟨q, q1, q2, _⟩; omega

theorem exists_pos_iff_mem (bs : List Bucket) (h : WF bs) (v : Nat) :
    (∃ q, q < 64 * bs.length ∧ bitAt bs q = true ∧ val bs q = v) ↔ Mem bs v := by
  constructor
  · rintro ⟨q, hq, hb, rfl⟩
    have hlt : q / 64 < bs.length := by omega
    have hmem := List.getElem_mem hlt
    have ha := h.aligned _ hmem
    unfold bitAt at hb
    unfold val
    rw [List.getElem?_eq_getElem hlt] at hb ⊢
    simp only at hb ⊢
    refine ⟨bs[q / 64], hmem, ?_, ?_⟩
    · unfold bucketStart largestIndex; omega
    · rw [show (bs[q / 64].start + q % 64) % 64 = q % 64 by omega]; exact hb
  · rintro ⟨b, hb, hs, hbit⟩
    obtain ⟨i, hi, rfl⟩ := List.getElem_of_mem hb
    have hm : v % 64 < 64 := Nat.mod_lt _ (by omega)
    refine ⟨64 * i + v % 64, by omega, ?_, ?_⟩
    · unfold bitAt
      rw [show (64 * i + v % 64) / 64 = i by omega, show (64 * i + v % 64) % 64 = v % 64 by omega,
        List.getElem?_eq_getElem hi]
      exact hbit
    · unfold val
      rw [show (64 * i + v % 64) / 64 = i by omega, show (64 * i + v % 64) % 64 = v % 64 by omega,
        List.getElem?_eq_getElem hi]
      simp only [hs]
      have := bucketStart_le v
      omega

theorem iterate_spec (s : ESet) (h : WF s.buckets) :
    ∃ l, iterate s = some l ∧ l.Pairwise (· < ·) ∧ ∀ v, v ∈ l ↔ Mem s.buckets v := by
  have fin : ∀ bi off, off < 64 → begin s = some (bi, off) →
      ((bi < s.buckets.length ∧ bitAt s.buckets (64 * bi + off) = true) ∨
        (bi = s.buckets.length ∧ off = 0)) →
      (∀ q, q < 64 * bi + off → bitAt s.buckets q = false) →
      ∃ l, iterate s = some l ∧ l.Pairwise (· < ·) ∧ ∀ v, v ∈ l ↔ Mem s.buckets v := by
    intro bi off ho hbegin hv hlow
    obtain ⟨l, hl, hs, hm⟩ := collect_spec s h (64 * s.buckets.length + 1) bi off ho hv (by omega)
    refine ⟨l, by simp only [iterate, hbegin, hl], hs, ?_⟩
    intro v
    rw [hm, ← exists_pos_iff_mem s.buckets h]
    constructor
    · rintro ⟨q, _, q2, q3, q4⟩; exact ⟨q, q2, q3, q4⟩
    · rintro ⟨q, q2, q3, q4⟩
      refine ⟨q, ?_, q2, q3, q4⟩
      apply Classical.byContradiction; intro hc
      rw [hlow q (by omega)] at q3; simp at q3
  by_cases h0 : s.buckets.length = 0
  · exact fin 0 0 (by omega) (by simp [begin, h0]) (.inr ⟨h0.symm, rfl⟩) (by intro q hq; omega)
  · have he := hasEnumAt_eq s 0 0 (by omega) (by omega)
    cases hb : bitAt s.buckets 0 with
    | true =>
      refine fin 0 0 (by omega) ?_ (.inl ⟨by omega, by simpa using hb⟩) (by intro q hq; omega)
      simp [begin, h0, he, hb]
    | false =>
      obtain ⟨bi', off', e, h1, h2, h3, h4⟩ := next_spec s 0 0 (by omega) (by omega)
      refine fin bi' off' h1 ?_ h2 ?_
      · simp [begin, h0, he, hb, e]
      · intro q hq
        rcases Nat.eq_zero_or_pos q with rfl | hp
        · exact hb
        · exact h4 q (by omega) hq

/-- Strictly increasing lists with the same members are equal. -/
theorem sorted_ext : ∀ (a b : List Nat), a.Pairwise (· < ·) → b.Pairwise (· < ·) →
    (∀ v, v ∈ a ↔ v ∈ b) → a = b := by
  intro a
  induction a with
  | nil => intro b _ _ h; cases b with
    | nil => rfl
    | cons y b => have := (h y).mpr (by simp); simp at this
  | cons x a ih =>
    intro b ha hb h
    cases b with
    | nil => have := (h x).mp (by simp); simp at this
    | cons y b =>
      rw [List.pairwise_cons] at ha hb
      have hxy : x = y := by
        rcases List.mem_cons.mp ((h x).mp (by simp)) with e | e
        · exact e
        · rcases List.mem_cons.mp ((h y).mpr (by simp)) with e' | e'
          · exact e'.symm
          · have := hb.1 x e; have := ha.1 y e'; omega
      subst hxy
      congr 1
      apply ih b ha.2 hb.2
      intro v
      constructor
      · intro hv
        rcases List.mem_cons.mp ((h v).mp (by simp [hv])) with e | e
        · have := ha.1 v hv; omega
        · exact e
      · intro hv
        rcases List.mem_cons.mp ((h v).mpr (by simp [hv])) with e | e
        · have := hb.1 v hv; omega
        · exact e

def elems (bs : List Bucket) : List Nat :=
  bs.flatMap fun b => ((List.range 64).filter (fun i => b.data.getLsbD i)).map (b.start + ·)

theorem elems_length (bs : List Bucket) : (elems bs).length = card bs := by
  induction bs with
  | nil => rfl
  | cons b bs ih =>
    simp only [elems, List.flatMap_cons, List.length_append, List.length_map] at ih ⊢
    rw [ih, card_cons, pop, List.countP_eq_length_filter]

theorem mem_elems (bs : List Bucket) (h : WF bs) (v : Nat) : v ∈ elems bs ↔ Mem bs v := by
  simp only [elems, List.mem_flatMap, List.mem_map, List.mem_filter, List.mem_range, Mem]
  constructor
  · rintro ⟨b, hb, i, ⟨hi, hbit⟩, rfl⟩
    have := h.aligned b hb
    refine ⟨b, hb, ?_, ?_⟩
    · unfold bucketStart largestIndex; omega
    · rw [show (b.start + i) % 64 = i by omega]; exact hbit
  · rintro ⟨b, hb, hs, hbit⟩
    have := bucketStart_le v
    exact ⟨b, hb, v % 64, ⟨Nat.mod_lt _ (by omega), hbit⟩, by omega⟩

theorem elems_sorted (bs : List Bucket) (h : WF bs) : (elems bs).Pairwise (· < ·) := by
  induction bs with
  | nil => simp [elems]
  | cons b bs ih =>
    have hwf := (wf_append_cons [] bs b).mp h
    have : elems (b :: bs) = ((List.range 64).filter (fun i => b.data.getLsbD i)).map (b.start + ·)
        ++ elems bs := by simp [elems]
    rw [this, List.pairwise_append]
    refine ⟨?_, ih hwf.1, ?_⟩
    · rw [List.pairwise_map]
      apply List.Pairwise.filter
      exact List.pairwise_lt_range.imp (by intro a b h; omega)
    · intro x hx y hy
      rw [mem_elems bs hwf.1] at hy
      obtain ⟨c, hc, hs, _⟩ := hy
      simp only [List.mem_map, List.mem_filter, List.mem_range] at hx
      obtain ⟨i, ⟨hi, _⟩, rfl⟩ := hx
      have h1 := hwf.2.2.1 c hc
      have h2 := bucketStart_le y
      have h3 : c.start % 64 = 0 := h.aligned c (by simp [hc])
      have h4 : b.start % 64 = 0 := h.aligned b (by simp)
      omega

theorem wf_tail {b : Bucket} {bs : List Bucket} (h : WF (b :: bs)) : WF bs :=
  ((wf_append_cons [] bs b).mp h).1

theorem head_lt {b : Bucket} {bs : List Bucket} (h : WF (b :: bs)) : ∀ c ∈ bs, b.start < c.start :=
  ((wf_append_cons [] bs b).mp h).2.2.1

theorem mem_cons (b : Bucket) (bs : List Bucket) (x : Nat) :
    Mem (b :: bs) x ↔ (b.start = bucketStart x ∧ b.data.getLsbD (x % 64) = true) ∨ Mem bs x := by
  have := mem_append_cons [] bs b x
  simp only [List.nil_append] at this
  rw [this]
  have : ¬ Mem [] x := by rintro ⟨c, hc, _⟩; simp at hc
  simp [this]

theorem hasAnyLoop_spec (a b : List Bucket) : WF a → WF b →
    (hasAnyLoop a b = true ↔ ∃ v, Mem a v ∧ Mem b v) := by
  have nilm : ∀ x, ¬ Mem [] x := by rintro x ⟨c, hc, _⟩; simp at hc
  induction a, b using hasAnyLoop.induct with
  | case1 b => intro _ _; simp [hasAnyLoop, nilm]
  | case2 a h => intro _ _; cases a <;> simp [hasAnyLoop, nilm]
  | case3 l ls r rs hst hne =>
    intro ha hb
    simp only [hasAnyLoop, hst, if_true, ne_eq, hne, not_false_eq_true, true_iff]
    obtain ⟨k, hk, hbit⟩ := ne_zero_bit _ hne
    rw [BitVec.getLsbD_and, Bool.and_eq_true] at hbit
    have hal : l.start % 64 = 0 := ha.aligned l (by simp)
    refine ⟨l.start + k, ?_, ?_⟩
    · rw [mem_cons]; left
      refine ⟨by unfold bucketStart largestIndex; omega, ?_⟩
      rw [show (l.start + k) % 64 = k by omega]; exact hbit.1
    · rw [mem_cons]; left
      refine ⟨by unfold bucketStart largestIndex; omega, ?_⟩
      rw [show (l.start + k) % 64 = k by omega]; exact hbit.2
  | case4 l ls r rs hst hz ih =>
    intro ha hb
    have hz : l.data &&& r.data = 0 := by simpa using hz
    rw [hasAnyLoop]
    simp only [hst, if_true, ne_eq, hz, not_true_eq_false, if_false]
    rw [ih (wf_tail ha) (wf_tail hb)]
    constructor
    · rintro ⟨v, h1, h2⟩
      exact ⟨v, (mem_cons _ _ _).mpr (.inr h1), (mem_cons _ _ _).mpr (.inr h2)⟩
    · rintro ⟨v, h1, h2⟩
      rw [mem_cons] at h1 h2
      rcases h1 with ⟨s1, b1⟩ | h1
      · rcases h2 with ⟨s2, b2⟩ | ⟨c, hc, s2, _⟩
        · have := BitVec.getLsbD_and (x := l.data) (y := r.data) (i := v % 64)
          rw [hz, b1, b2] at this; simp at this
        · have := head_lt hb c hc; omega
      · rcases h2 with ⟨s2, b2⟩ | h2
        · obtain ⟨c, hc, s1, _⟩ := h1
          have := head_lt ha c hc; omega
        · exact ⟨v, h1, h2⟩
  | case5 l ls r rs hst hlt ih =>
    intro ha hb
    rw [hasAnyLoop]
    simp only [hst, if_false, hlt, if_true]
    rw [ih (wf_tail ha) hb]
    constructor
    · rintro ⟨v, h1, h2⟩
      exact ⟨v, (mem_cons _ _ _).mpr (.inr h1), h2⟩
    · rintro ⟨v, h1, h2⟩
      rw [mem_cons] at h1
      rcases h1 with ⟨s1, b1⟩ | h1
      · rw [mem_cons] at h2
        rcases h2 with ⟨s2, b2⟩ | ⟨c, hc, s2, _⟩
        · omega
        · have := head_lt hb c hc; omega
      · exact ⟨v, h1, h2⟩
  | case6 l ls r rs hst hlt ih =>
    intro ha hb
    rw [hasAnyLoop]
    simp only [hst, if_false, hlt]
    rw [ih ha (wf_tail hb)]
    constructor
    · rintro ⟨v, h1, h2⟩
      exact ⟨v, h1, (mem_cons _ _ _).mpr (.inr h2)⟩
    · rintro ⟨v, h1, h2⟩
      rw [mem_cons] at h2
      rcases h2 with ⟨s2, b2⟩ | h2
      · rw [mem_cons] at h1
        rcases h1 with ⟨s1, b1⟩ | ⟨c, hc, s1, _⟩
        · omega
        · have := head_lt ha c hc; omega
      · exact ⟨v, h1, h2⟩

/-- Well-formed buckets are canonical. -/
theorem buckets_ext : ∀ (a b : List Bucket), WF a → WF b → (∀ v, Mem a v ↔ Mem b v) → a = b := by
  have nilm : ∀ x, ¬ Mem [] x := by rintro x ⟨c, hc, _⟩; simp at hc
  have hd : ∀ (x : Bucket) (xs : List Bucket), WF (x :: xs) →
      ∃ v, Mem (x :: xs) v ∧ bucketStart v = x.start := by
    intro x xs hx
    obtain ⟨k, hk, hb⟩ := ne_zero_bit _ (hx.nonempty x (by simp))
    have ha : x.start % 64 = 0 := hx.aligned x (by simp)
    have e : bucketStart (x.start + k) = x.start := by unfold bucketStart largestIndex; omega
    refine ⟨x.start + k, (mem_cons _ _ _).mpr (.inl ⟨e.symm, ?_⟩), e⟩
    rw [show (x.start + k) % 64 = k by omega]; exact hb
  have low : ∀ (x : Bucket) (xs : List Bucket), WF (x :: xs) → ∀ v, Mem (x :: xs) v →
      x.start ≤ bucketStart v := by
    intro x xs hx v hv
    rw [mem_cons] at hv
    rcases hv with ⟨h, _⟩ | ⟨c, hc, h, _⟩
    · omega
    · have := head_lt hx c hc; omega
  intro a
  induction a with
  | nil =>
    intro b _ hb h
    cases b with
    | nil => rfl
    | cons y b => obtain ⟨v, hv, _⟩ := hd y b hb; exact absurd ((h v).mpr hv) (nilm v)
  | cons x a ih =>
    intro b ha hb h
    cases b with
    | nil => obtain ⟨v, hv, _⟩ := hd x a ha; exact absurd ((h v).mp hv) (nilm v)
    | cons y b =>
      have hst : x.start = y.start := by
        obtain ⟨v, hv, hvs⟩ := hd x a ha
        obtain ⟨u, hu, hus⟩ := hd y b hb
        have := low y b hb v ((h v).mp hv)
        have := low x a ha u ((h u).mpr hu)
        omega
      have hax : x.start % 64 = 0 := ha.aligned x (by simp)
      have tl : ∀ (x : Bucket) (xs : List Bucket), WF (x :: xs) → ∀ v, Mem xs v ↔
          (Mem (x :: xs) v ∧ bucketStart v ≠ x.start) := by
        intro x xs hx v
        rw [mem_cons]
        constructor
        · rintro ⟨c, hc, hs, hbit⟩
          refine ⟨.inr ⟨c, hc, hs, hbit⟩, ?_⟩
          have := head_lt hx c hc; omega
        · rintro ⟨⟨h1, _⟩ | h1, h2⟩
          · exact absurd h1.symm h2
          · exact h1
      have hdata : x.data = y.data := by
        apply BitVec.eq_of_getLsbD_eq
        intro k hk
        have e1 : bucketStart (x.start + k) = x.start := by unfold bucketStart largestIndex; omega
        have e2 : (x.start + k) % 64 = k := by omega
        have hx : Mem (x :: a) (x.start + k) ↔ x.data.getLsbD k = true := by
          rw [mem_cons, e1, e2]
          constructor
          · rintro (h | ⟨c, hc, hs, _⟩)
            · exact h.2
            · have := head_lt ha c hc; omega
          · intro h; exact .inl ⟨rfl, h⟩
        have hy : Mem (y :: b) (x.start + k) ↔ y.data.getLsbD k = true := by
          rw [mem_cons, e1, e2]
          constructor
          · rintro (h | ⟨c, hc, hs, _⟩)
            · exact h.2
            · have := head_lt hb c hc; omega
          · intro h; exact .inl ⟨hst.symm, h⟩
        exact Bool.eq_iff_iff.mpr (hx.symm.trans ((h _).trans hy))
      have hxy : x = y := by
        cases x; cases y; simp_all
      rw [hxy]
      congr 1
      apply ih b (wf_tail ha) (wf_tail hb)
      intro v
      rw [tl x a ha, tl y b hb, h, hst]

end Verif.EnumSet
