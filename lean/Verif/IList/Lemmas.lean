import Verif.IList.Spec
set_option linter.unusedSimpArgs false
set_option linter.unusedVariables false

namespace Verif.IList
open Spec

/-! ### Chains -/

/-- Consecutive elements point at each other. -/
def Link (nx pv : Nat → Option Nat) : List Nat → Prop
  | a :: b :: t => nx a = some b ∧ pv b = some a ∧ Link nx pv (b :: t)
  | _ => True

theorem link_append (nx pv : Nat → Option Nat) (x : Nat) (l2 : List Nat) : ∀ (l1 : List Nat),
    Link nx pv (l1 ++ x :: l2) ↔ Link nx pv (l1 ++ [x]) ∧ Link nx pv (x :: l2)
  | [] => by simp [Link]
  | [a] => by
    simp only [List.cons_append, List.nil_append, Link]
    grind
  | a :: b :: l1 => by
    have := link_append nx pv x l2 (b :: l1)
    simp only [List.cons_append, Link] at *
    rw [this]
    grind

theorem link_congr {nx pv nx' pv' : Nat → Option Nat} : ∀ (l : List Nat), (∀ a ∈ l.dropLast, nx' a = nx a) →
    (∀ a ∈ l.tail, pv' a = pv a) → Link nx pv l → Link nx' pv' l
  | [], _, _, _ => trivial
  | [a], _, _, _ => trivial
  | a :: b :: t, hn, hp, h => by
    refine ⟨?_, ?_, link_congr (b :: t) ?_ ?_ h.2.2⟩
    · rw [hn a (by simp)]; exact h.1
    · rw [hp b (by simp)]; exact h.2.1
    · intro c hc; exact hn c (by simp only [List.dropLast_cons₂, List.mem_cons]; right; exact hc)
    · intro c hc; exact hp c (by simp at hc ⊢; right; exact hc)

theorem link_seam {nx pv nx' pv' : Nat → Option Nat} (A B zs ys : List Nat) (x y : Nat)
    (h : Link nx pv (A ++ x :: (zs ++ y :: B))) (hm : Link nx' pv' (x :: (ys ++ [y])))
    (hn : ∀ a, a ∈ A ∨ a ∈ (y :: B).dropLast → nx' a = nx a)
    (hp : ∀ a, a ∈ (A ++ [x]).tail ∨ a ∈ B → pv' a = pv a) :
    Link nx' pv' (A ++ x :: (ys ++ y :: B)) := by
  rw [link_append] at h ⊢
  obtain ⟨h1, h2⟩ := h
  refine ⟨link_congr _ (fun a ha => hn a (Or.inl (by simpa using ha))) (fun a ha => hp a (Or.inl ha)) h1, ?_⟩
  have e1 : x :: (zs ++ y :: B) = (x :: zs) ++ y :: B := rfl
  have e2 : x :: (ys ++ y :: B) = (x :: ys) ++ y :: B := rfl
  rw [e1, link_append] at h2
  rw [e2, link_append]
  exact ⟨hm, link_congr _ (fun a ha => hn a (Or.inr ha)) (fun a ha => hp a (Or.inr (by simpa using ha))) h2.2⟩

theorem link_ends {nx pv : Nat → Option Nat} (x y f e : Nat) (ys : List Nat) (h : Link nx pv ys)
    (hf : ys.head? = some f) (he : ys.getLast? = some e) (h1 : nx x = some f) (h2 : pv f = some x)
    (h3 : nx e = some y) (h4 : pv y = some e) : Link nx pv (x :: (ys ++ [y])) := by
  cases ys with
  | nil => simp at hf
  | cons g t =>
    simp only [List.head?_cons, Option.some.injEq] at hf
    subst hf
    refine ⟨h1, h2, ?_⟩
    have hne : (g :: t) ≠ [] := by simp
    have : (g :: t) = (g :: t).dropLast ++ [e] := by
      rw [List.getLast?_eq_some_getLast hne, Option.some.injEq] at he
      rw [← he, List.dropLast_concat_getLast]
    have e2 : g :: (t ++ [y]) = (g :: t).dropLast ++ e :: [y] := by
      conv => lhs; rw [← List.cons_append, this]
      simp
    show Link nx pv (g :: (t ++ [y]))
    rw [e2, link_append]
    exact ⟨by rw [← this]; exact h, h3, h4, trivial⟩

theorem link_mid {nx pv : Nat → Option Nat} (x y : Nat) (ys : List Nat) (h : Link nx pv (x :: (ys ++ [y]))) :
    Link nx pv ys ∧ (∀ f, ys.head? = some f → nx x = some f ∧ pv f = some x) ∧
    (∀ e, ys.getLast? = some e → nx e = some y ∧ pv y = some e) := by
  refine ⟨?_, ?_, ?_⟩
  · cases ys with
    | nil => trivial
    | cons g t =>
      have h' : Link nx pv (g :: (t ++ [y])) := h.2.2
      have hne : (g :: t) ≠ [] := by simp
      have e := List.dropLast_concat_getLast hne
      have e2 : g :: (t ++ [y]) = (g :: t).dropLast ++ (g :: t).getLast hne :: [y] := by
        conv => lhs; rw [← List.cons_append, ← e]
        simp
      rw [e2, link_append] at h'
      rw [← e]; exact h'.1
  · intro f hf
    cases ys with
    | nil => simp at hf
    | cons g t => simp at hf; subst hf; exact ⟨h.1, h.2.1⟩
  · intro e he
    have hne : ys ≠ [] := by rintro rfl; simp at he
    rw [List.getLast?_eq_some_getLast hne, Option.some.injEq] at he
    have e1 := List.dropLast_concat_getLast hne
    have e2 : x :: (ys ++ [y]) = (x :: ys.dropLast) ++ e :: [y] := by
      conv => lhs; rw [← e1]
      simp [he]
    rw [e2, link_append] at h
    exact ⟨h.2.1, h.2.2.1⟩

/-! ### Invariant -/

/-- `own` says in which list a node (or sentinel) is; the nodes in `L` are exempt from having
null pointers although they are in no list. -/
structure Inv (h : Heap) (T : State) (own : Nat → Option Nat) (L : List Nat) : Prop where
  live : ∀ a, h.live a = true ↔ ((T.lists a).isSome ∨ T.nodes a = true)
  sent : ∀ a, h.live a = true → (h.sent a = true ↔ (T.lists a).isSome)
  excl : ∀ a, T.nodes a = true → T.lists a = none
  memb : ∀ s xs, T.lists s = some xs → ∀ a, a ∈ s :: xs ↔ own a = some s
  nodup : ∀ s xs, T.lists s = some xs → (s :: xs).Nodup
  node : ∀ s xs a, T.lists s = some xs → a ∈ xs → T.nodes a = true
  ownd : ∀ a s, own a = some s → (T.lists s).isSome
  link : ∀ s xs, T.lists s = some xs → Link h.next h.prev (s :: (xs ++ [s]))
  free : ∀ a, T.nodes a = true → own a = none → a ∉ L → h.next a = none ∧ h.prev a = none

theorem seam_dropLast {C A R : List Nat} {x s : Nat} (h : C ++ [s] = A ++ x :: R) (hR : R ≠ []) :
    C = A ++ x :: R.dropLast := by
  have := congrArg List.dropLast h
  rw [List.dropLast_concat, List.dropLast_append_cons, List.dropLast_cons_of_ne_nil hR] at this
  exact this

theorem seam_tail {C A R : List Nat} {x s : Nat} (h : s :: C = A ++ x :: R) :
    C = (A ++ [x]).tail ++ R := by
  have := congrArg List.tail h
  cases A <;> simpa using this

/-- Consequences of cutting the ring `s :: xs ++ [s]` at a seam. -/
theorem seam_facts {s : Nat} {xs A B zs : List Nat} {x y : Nat} (hnd : (s :: xs).Nodup)
    (hC : s :: (xs ++ [s]) = A ++ x :: (zs ++ y :: B)) :
    s :: xs = A ++ x :: (zs ++ (y :: B).dropLast) ∧ xs ++ [s] = (A ++ [x]).tail ++ (zs ++ y :: B) ∧
    (A ++ x :: (zs ++ (y :: B).dropLast)).Nodup ∧ ((A ++ [x]).tail ++ (zs ++ y :: B)).Nodup := by
  have h1 : s :: xs = A ++ x :: (zs ++ (y :: B).dropLast) := by
    have := seam_dropLast (C := s :: xs) (s := s) hC (by simp)
    rwa [List.dropLast_append_cons] at this
  have h2 := seam_tail hC
  refine ⟨h1, h2, h1 ▸ hnd, h2 ▸ ?_⟩
  rw [List.nodup_append]
  have := List.nodup_cons.1 hnd
  refine ⟨this.2, by simp, ?_⟩
  intro a ha b hb e
  simp at hb; subst hb; subst e; exact this.1 ha

theorem mem_ring {s : Nat} {xs A B zs : List Nat} {x y : Nat}
    (hC : s :: (xs ++ [s]) = A ++ x :: (zs ++ y :: B)) (a : Nat) (h : a ∈ A ++ x :: (zs ++ y :: B)) : a ∈ s :: xs := by
  rw [← hC] at h; simp at h ⊢; grind

theorem inv_seam {h h' : Heap} {T : State} {own : Nat → Option Nat} {s : Nat} {xs xs' A B zs ys : List Nat}
    {x y : Nat} (L L' : List Nat)
    (I : Inv h T own L) (hs : T.lists s = some xs)
    (hC : s :: (xs ++ [s]) = A ++ x :: (zs ++ y :: B)) (hC' : s :: (xs' ++ [s]) = A ++ x :: (ys ++ y :: B))
    (hlive : h'.live = h.live) (hsent : h'.sent = h.sent)
    (hys : ∀ a ∈ ys, T.nodes a = true ∧ (own a = none ∨ a ∈ zs)) (hnd : ys.Nodup)
    (hn : ∀ a, a ≠ x → a ∉ zs → a ∉ ys → h'.next a = h.next a)
    (hp : ∀ a, a ≠ y → a ∉ zs → a ∉ ys → h'.prev a = h.prev a)
    (hl : Link h'.next h'.prev (x :: (ys ++ [y])))
    (hf : ∀ a, a ∉ L' → a ∉ ys → (a ∈ zs ∨ own a = none ∧ T.nodes a = true) → h'.next a = none ∧ h'.prev a = none) :
    Inv h' { T with lists := upd T.lists s (some xs') }
      (fun a => if a ∈ ys then some s else if a ∈ zs then none else own a) L' := by
  obtain ⟨f1, f2, f3, f4⟩ := seam_facts (I.nodup s xs hs) hC
  have own_ring : ∀ a ∈ A ++ x :: (zs ++ y :: B), own a = some s := fun a ha =>
    (I.memb s xs hs a).1 (mem_ring hC a ha)
  have g1 : s :: xs' = A ++ x :: (ys ++ (y :: B).dropLast) := by
    have := seam_dropLast (C := s :: xs') (s := s) hC' (by simp)
    rwa [List.dropLast_append_cons] at this
  have hzs : ∀ a ∈ zs, a ∈ xs := by
    intro a ha
    have h0 : a ∈ s :: xs := by rw [f1]; simp [ha]
    have h1 : s ∉ zs := by
      intro hh
      have : A ++ [x] = s :: (A ++ [x]).tail := by
        cases A with
        | nil => simp at f1 ⊢; exact f1.1.symm
        | cons b A => simp at f1 ⊢; exact f1.1.symm
      rw [show A ++ x :: (zs ++ (y :: B).dropLast) = (A ++ [x]) ++ (zs ++ (y :: B).dropLast) by simp, this] at f3
      simp only [List.cons_append, List.nodup_cons, List.mem_append] at f3
      exact f3.1 (Or.inr (Or.inl hh))
    rcases List.mem_cons.1 h0 with rfl | h0
    · exact absurd ha h1
    · exact h0
  have other : ∀ s' xs1, s' ≠ s → T.lists s' = some xs1 → ∀ a ∈ s' :: xs1, a ≠ x ∧ a ≠ y ∧ a ∉ zs ∧ a ∉ ys := by
    intro s' xs1 hne h1 a ha
    have h2 := (I.memb s' xs1 h1 a).1 ha
    have h3 : own a ≠ some s := by rw [h2]; simpa using hne
    refine ⟨?_, ?_, ?_, ?_⟩
    · rintro rfl; exact h3 (own_ring a (by simp))
    · rintro rfl; exact h3 (own_ring a (by simp))
    · intro hh; exact h3 (own_ring a (by simp [hh]))
    · intro hh
      rcases (hys a hh).2 with h4 | h4
      · rw [h2] at h4; simp at h4
      · exact h3 (own_ring a (by simp [h4]))
  have hsx : ∀ a, (upd T.lists s (some xs') a).isSome = (T.lists a).isSome := by
    intro a; unfold upd; split
    · rename_i e; subst e; simp [hs]
    · rfl
  constructor
  · intro a; rw [hlive, I.live a]; simp only [hsx]
  · intro a ha; rw [hlive] at ha; rw [hsent, I.sent a ha]; simp only [hsx]
  · intro a ha
    have h0 := I.excl a ha
    have : a ≠ s := by rintro rfl; rw [hs] at h0; simp at h0
    simp [upd, this, h0]
  · intro s' xs1 h1 a
    by_cases e : s' = s
    · subst e
      simp only [upd, if_true, Option.some.injEq] at h1
      subst h1
      rw [g1]
      have h5 := I.memb s' xs hs a
      rw [f1] at h5
      simp only [List.mem_append, List.mem_cons] at h5 ⊢
      by_cases c1 : a ∈ ys
      · simp [c1]
      · by_cases c2 : a ∈ zs
        · simp only [c1, c2, if_true, if_false, false_or, reduceCtorEq, iff_false]
          rw [List.nodup_append] at f3
          simp only [List.nodup_cons, List.nodup_append, List.mem_append, List.mem_cons] at f3
          grind
        · simp only [c1, c2, if_false, false_or] at h5 ⊢
          exact h5
    · simp only [upd, e, if_false] at h1
      have h5 := I.memb s' xs1 h1 a
      rw [h5]
      by_cases c1 : a ∈ ys
      · have h6 := (hys a c1).2
        simp only [c1, if_true, Option.some.injEq]
        constructor
        · intro h7
          have := other s' xs1 e h1 a (h5.2 h7)
          exact absurd c1 this.2.2.2
        · intro h7; exact absurd h7.symm e
      · by_cases c2 : a ∈ zs
        · simp only [c1, c2, if_true, if_false]
          constructor
          · intro h7
            have := other s' xs1 e h1 a (h5.2 h7)
            exact absurd c2 this.2.2.1
          · intro h7; simp at h7
        · simp only [c1, c2, if_false]
  · intro s' xs1 h1
    by_cases e : s' = s
    · subst e
      simp only [upd, if_true, Option.some.injEq] at h1
      subst h1
      rw [g1]
      have d : ∀ a ∈ ys, a ∉ A ∧ a ≠ x ∧ a ∉ (y :: B).dropLast := by
        intro a ha
        have key : own a = some s' → a ∈ zs := by
          intro h6; rcases (hys a ha).2 with h7 | h7
          · rw [h6] at h7; simp at h7
          · exact h7
        rw [List.nodup_append] at f3
        simp only [List.nodup_cons, List.nodup_append, List.mem_append, List.mem_cons] at f3
        refine ⟨fun hh => ?_, fun hh => ?_, fun hh => ?_⟩
        · have := key (own_ring a (by simp [hh])); grind
        · have := key (own_ring a (by simp [hh])); grind
        · have := key (own_ring a (by have := (List.dropLast_sublist _).subset hh; simp at this ⊢; grind)); grind
      clear other own_ring hsx hn hp hf hl hys g1 f1 f2 f4 hzs hC hC' I
      generalize (y :: B).dropLast = D at *
      rw [List.nodup_append] at f3 ⊢
      simp only [List.nodup_cons, List.nodup_append, List.mem_append, List.mem_cons] at f3 ⊢
      refine ⟨f3.1, ⟨fun hh => ?_, hnd, f3.2.1.2.2.1, fun a ha b hb e => ?_⟩, fun a ha b hb e => ?_⟩
      · rcases hh with hh | hh
        · exact (d x hh).2.1 rfl
        · exact f3.2.1.1 (Or.inr hh)
      · subst e; exact (d a ha).2.2 hb
      · subst e
        rcases hb with hb | hb | hb
        · exact f3.2.2 a ha a (Or.inl hb) rfl
        · exact (d a hb).1 ha
        · exact f3.2.2 a ha a (Or.inr (Or.inr hb)) rfl
    · simp only [upd, e, if_false] at h1
      exact I.nodup s' xs1 h1
  · intro s' xs1 a h1 ha
    by_cases e : s' = s
    · subst e
      simp only [upd, if_true, Option.some.injEq] at h1
      subst h1
      have h6 : a ∈ s' :: xs' := List.mem_cons_of_mem _ ha
      by_cases c1 : a ∈ ys
      · exact (hys a c1).1
      · have : a ∈ s' :: xs := by
          rw [f1]; rw [g1] at h6
          simp only [List.mem_append, List.mem_cons] at h6 ⊢
          grind
        rcases List.mem_cons.1 this with rfl | h7
        · exfalso
          -- the sentinel would be twice in the new list
          have : xs' ++ [a] = (A ++ [x]).tail ++ (ys ++ y :: B) := seam_tail hC'
          have f4' := f4
          have h8 : a ∈ (A ++ [x]).tail ++ (ys ++ (y :: B).dropLast) := by
            have h9 := seam_dropLast (C := xs') (s := a) (A := (A ++ [x]).tail ++ ys) (x := y) (R := B)
              (by rw [this]; simp)
            cases hB : B with
            | nil =>
              subst hB
              have : xs' = (A ++ [x]).tail ++ ys := by
                have := congrArg List.dropLast this
                rw [List.dropLast_concat, show (A ++ [x]).tail ++ (ys ++ [y]) = ((A ++ [x]).tail ++ ys) ++ [y] by simp,
                  List.dropLast_concat] at this
                exact this
              rw [this] at ha; simpa using ha
            | cons b B' =>
              rw [h9 (by simp [hB])] at ha
              simp only [hB, List.dropLast_cons₂] at ha ⊢
              simpa using ha
          have h10 : a ∈ (A ++ [x]).tail ++ (zs ++ (y :: B).dropLast) := by
            simp only [List.mem_append] at h8 ⊢; grind
          have h11 : xs = (A ++ [x]).tail ++ (zs ++ (y :: B).dropLast) := by
            have := congrArg List.dropLast f2
            rw [List.dropLast_concat, show (A ++ [x]).tail ++ (zs ++ y :: B) = ((A ++ [x]).tail ++ zs) ++ (y :: B) by simp,
              List.dropLast_append_cons] at this
            simpa using this
          rw [← h11] at h10
          exact (List.nodup_cons.1 (I.nodup a xs hs)).1 h10
        · exact I.node s' xs a hs h7
    · simp only [upd, e, if_false] at h1
      exact I.node s' xs1 a h1 ha
  · intro a s' h1
    rw [hsx]
    split at h1
    · simp only [Option.some.injEq] at h1; subst h1; simp [hs]
    · split at h1
      · simp at h1
      · exact I.ownd a s' h1
  · intro s' xs1 h1
    by_cases e : s' = s
    · subst e
      simp only [upd, if_true, Option.some.injEq] at h1
      subst h1
      rw [hC']
      have hL := I.link s' xs hs
      rw [hC] at hL
      have f3' := f3
      have f4' := f4
      rw [List.nodup_append] at f3 f4
      simp only [List.nodup_cons, List.nodup_append, List.mem_append, List.mem_cons] at f3 f4
      have d : ∀ a ∈ ys, a ∈ A ++ x :: (zs ++ y :: B) → a ∈ zs := by
        intro a ha hb
        rcases (hys a ha).2 with h7 | h7
        · rw [own_ring a hb] at h7; simp at h7
        · exact h7
      apply link_seam A B zs ys x y hL hl
      · intro a ha
        apply hn a
        · grind
        · grind
        · intro hh
          have hz := d a hh (by
            rcases ha with ha | ha
            · simp [ha]
            · have := (List.dropLast_sublist _).subset ha; simp at this ⊢; grind)
          grind
      · intro a ha
        apply hp a
        · grind
        · grind
        · intro hh
          have hz := d a hh (by
            rcases ha with ha | ha
            · have := List.mem_of_mem_tail ha; simp at this ⊢; grind
            · simp [ha])
          grind
    · simp only [upd, e, if_false] at h1
      have ho := other s' xs1 e h1
      apply link_congr _ _ _ (I.link s' xs1 h1)
      · intro a ha
        have : a ∈ s' :: xs1 := by
          have := (List.dropLast_sublist _).subset ha; simp at this ⊢; grind
        exact hn a (ho a this).1 (ho a this).2.2.1 (ho a this).2.2.2
      · intro a ha
        have : a ∈ s' :: xs1 := by
          have := List.mem_of_mem_tail ha; simp at this ⊢; grind
        exact hp a (ho a this).2.1 (ho a this).2.2.1 (ho a this).2.2.2
  · intro a h1 h2 h3
    split at h2
    · simp at h2
    · rename_i c1
      split at h2
      · rename_i c2; exact hf a h3 c1 (Or.inl c2)
      · exact hf a h3 c1 (Or.inr ⟨h2, h1⟩)

end Verif.IList
