import Verif.IList.Ops
set_option linter.unusedSimpArgs false
set_option linter.unusedVariables false

namespace Verif.IList
open Spec
variable {h : Heap} {T : State} {own : Nat → Option Nat} {L : List Nat}

/-- The heap after closing the gap between `x` and `y`. -/
def cutHeap (h : Heap) (x y : Nat) : Heap :=
  { h with next := upd h.next x (some y), prev := upd h.prev y (some x) }

/-- The heap after placing a chain from `f` to `e` between `x` and `y`. -/
def attachHeap (h : Heap) (x y f e : Nat) : Heap :=
  { h with next := upd (upd h.next x (some f)) e (some y), prev := upd (upd h.prev y (some e)) f (some x) }

/-- A nonempty chain of nodes in no list. -/
structure Loose (h : Heap) (T : State) (own : Nat → Option Nat) (seg : List Nat) (f e : Nat) : Prop where
  nodup : seg.Nodup
  nodes : ∀ a ∈ seg, T.nodes a = true ∧ own a = none
  link : Link h.next h.prev seg
  first : seg.head? = some f
  last : seg.getLast? = some e

theorem head_mem {seg : List Nat} {f : Nat} (hf : seg.head? = some f) : f ∈ seg := List.mem_of_mem_head? hf
theorem last_mem {seg : List Nat} {f : Nat} (hf : seg.getLast? = some f) : f ∈ seg := List.mem_of_getLast? hf

theorem last_not_dropLast {seg : List Nat} {e : Nat} (hn : seg.Nodup) (he : seg.getLast? = some e) : e ∉ seg.dropLast := by
  have hne : seg ≠ [] := by rintro rfl; simp at he
  rw [List.getLast?_eq_some_getLast hne, Option.some.injEq] at he
  rw [← List.dropLast_concat_getLast hne, he, List.nodup_append] at hn
  intro hh; exact hn.2.2 e hh e (by simp) rfl

theorem head_not_tail {seg : List Nat} {f : Nat} (hn : seg.Nodup) (hf : seg.head? = some f) : f ∉ seg.tail := by
  cases seg with
  | nil => simp at hf
  | cons g t => simp at hf; subst hf; exact (List.nodup_cons.1 hn).1

theorem cut_ok (I : Inv h T own []) {s : Nat} {xs xs' A B seg : List Nat} {x y f e : Nat} (hs : T.lists s = some xs)
    (hC : s :: (xs ++ [s]) = A ++ x :: (seg ++ y :: B)) (hC' : s :: (xs' ++ [s]) = A ++ x :: ([] ++ y :: B))
    (hf : seg.head? = some f) (he : seg.getLast? = some e) :
    (∃ own', Inv (cutHeap h x y) { T with lists := upd T.lists s (some xs') } own' seg ∧
      Loose (cutHeap h x y) { T with lists := upd T.lists s (some xs') } own' seg f e ∧
      (∀ a, a ∉ seg → own' a = own a)) ∧
    h.next x = some f ∧ h.prev f = some x ∧ h.next e = some y ∧ h.prev y = some e ∧
    h.live x = true ∧ h.live y = true ∧ h.live f = true ∧ h.live e = true ∧ x ∉ seg ∧ y ∉ seg ∧
    ∀ a ∈ A ++ x :: (seg ++ y :: B), own a = some s := by
  have hl := I.link s xs hs
  have ownr : ∀ a ∈ A ++ x :: (seg ++ y :: B), own a = some s := fun a ha => (I.memb s xs hs a).1 (mem_ring hC a ha)
  rw [hC, link_append] at hl
  have hl2 : Link h.next h.prev (x :: (seg ++ [y])) := by
    have := hl.2
    rw [← List.cons_append, link_append] at this
    exact this.1
  obtain ⟨m1, m2, m3⟩ := link_mid x y seg hl2
  have m2 := m2 f hf
  have m3 := m3 e he
  obtain ⟨f1, f2, f3, f4⟩ := seam_facts (I.nodup s xs hs) hC
  have hx : x ∉ seg := by
    rw [List.nodup_append] at f3; simp only [List.nodup_cons, List.mem_append, List.mem_cons] at f3; grind
  have hy : y ∉ seg := by
    rw [List.nodup_append, List.nodup_append] at f4
    simp only [List.nodup_cons, List.mem_append, List.mem_cons] at f4; grind
  have hnd : seg.Nodup := by
    rw [List.nodup_append] at f4
    rw [List.nodup_append] at f4
    exact f4.2.1.1
  have hnode : ∀ a ∈ seg, T.nodes a = true := by
    intro a ha
    have h0 : a ∈ xs ++ [s] := by rw [f2]; simp [ha]
    simp only [List.mem_append, List.mem_singleton] at h0
    rcases h0 with h0 | rfl
    · exact I.node s xs a hs h0
    · exfalso
      have : A ++ [x] = a :: (A ++ [x]).tail := by
        cases A with
        | nil => simp at f1 ⊢; exact f1.1.symm
        | cons b A => simp at f1 ⊢; exact f1.1.symm
      rw [show A ++ x :: (seg ++ (y :: B).dropLast) = (A ++ [x]) ++ (seg ++ (y :: B).dropLast) by simp, this] at f3
      simp only [List.cons_append, List.nodup_cons, List.mem_append] at f3
      exact f3.1 (Or.inr (Or.inl ha))
  refine ⟨⟨_, inv_seam [] seg I hs hC hC' rfl rfl (by simp) (by simp) ?_ ?_ ?_ ?_, ⟨hnd, ?_, ?_, hf, he⟩, ?_⟩,
    m2.1, m2.2, m3.1, m3.2, live_own I (ownr x (by simp)), live_own I (ownr y (by simp)),
    live_own I (ownr f (by simp [head_mem hf])), live_own I (ownr e (by simp [last_mem he])), hx, hy, ownr⟩
  · intro a c1 c2 c3; simp [cutHeap, upd, c1]
  · intro a c1 c2 c3; simp [cutHeap, upd, c1]
  · simp [Link, cutHeap, upd]
  · intro a c1 c2 c3
    rcases c3 with c3 | c3
    · exact absurd c3 c1
    · have hfr := I.free a c3.2 c3.1 (by simp)
      have ax : a ≠ x := by rintro rfl; rw [ownr a (by simp)] at c3; simp at c3
      have ay : a ≠ y := by rintro rfl; rw [ownr a (by simp)] at c3; simp at c3
      simp [cutHeap, upd, ax, ay, hfr]
  · intro a ha
    exact ⟨hnode a ha, by simp [ha]⟩
  · apply link_congr seg _ _ m1
    · intro a ha
      have ha' := (List.dropLast_sublist _).subset ha
      have : a ≠ x := by rintro rfl; exact hx ha'
      simp [cutHeap, upd, this]
    · intro a ha
      have ha' := List.mem_of_mem_tail ha
      have : a ≠ y := by rintro rfl; exact hy ha'
      simp [cutHeap, upd, this]
  · intro a ha; simp [ha]

theorem attach_ok {seg : List Nat} {f e : Nat} (I : Inv h T own seg) (hseg : Loose h T own seg f e) {s : Nat}
    {xs xs' A B : List Nat} {x y : Nat} (hs : T.lists s = some xs)
    (hC : s :: (xs ++ [s]) = A ++ x :: ([] ++ y :: B)) (hC' : s :: (xs' ++ [s]) = A ++ x :: (seg ++ y :: B)) :
    ∃ own', Inv (attachHeap h x y f e) { T with lists := upd T.lists s (some xs') } own' [] := by
  have ownr : ∀ a ∈ A ++ x :: ([] ++ y :: B), own a = some s := fun a ha => (I.memb s xs hs a).1 (mem_ring hC a ha)
  have hx : x ∉ seg := by
    intro hh; have := (hseg.nodes x hh).2; rw [ownr x (by simp)] at this; simp at this
  have hy : y ∉ seg := by
    intro hh; have := (hseg.nodes y hh).2; rw [ownr y (by simp)] at this; simp at this
  have fm := head_mem hseg.first
  have em := last_mem hseg.last
  have ex : e ≠ x := by rintro rfl; exact hx em
  have fy : f ≠ y := by rintro rfl; exact hy fm
  refine ⟨_, inv_seam seg [] I hs hC hC' rfl rfl ?_ hseg.nodup ?_ ?_ ?_ ?_⟩
  · intro a ha; exact ⟨(hseg.nodes a ha).1, Or.inl (hseg.nodes a ha).2⟩
  · intro a c1 c2 c3
    have : a ≠ e := by rintro rfl; exact c3 em
    simp [attachHeap, upd, c1, this]
  · intro a c1 c2 c3
    have : a ≠ f := by rintro rfl; exact c3 fm
    simp [attachHeap, upd, c1, this]
  · apply link_ends x y f e seg _ hseg.first hseg.last
    · simp [attachHeap, upd, Ne.symm ex]
    · simp [attachHeap, upd]
    · simp [attachHeap, upd]
    · simp [attachHeap, upd, Ne.symm fy]
    · apply link_congr seg _ _ hseg.link
      · intro a ha
        have ha' := (List.dropLast_sublist _).subset ha
        have h1 : a ≠ x := by rintro rfl; exact hx ha'
        have h2 : a ≠ e := by rintro rfl; exact last_not_dropLast hseg.nodup hseg.last ha
        simp [attachHeap, upd, h1, h2]
      · intro a ha
        have ha' := List.mem_of_mem_tail ha
        have h1 : a ≠ y := by rintro rfl; exact hy ha'
        have h2 : a ≠ f := by rintro rfl; exact head_not_tail hseg.nodup hseg.first ha
        simp [attachHeap, upd, h1, h2]
  · intro a c1 c2 c3
    simp at c3
    have hfr := I.free a c3.2 c3.1 c2
    have ax : a ≠ x := by rintro rfl; rw [ownr a (by simp)] at c3; simp at c3
    have ay : a ≠ y := by rintro rfl; rw [ownr a (by simp)] at c3; simp at c3
    have af : a ≠ f := by rintro rfl; exact c2 fm
    have ae : a ≠ e := by rintro rfl; exact c2 em
    simp [attachHeap, upd, ax, ay, af, ae, hfr]

/-! ### First and last, next and previous -/

theorem next_ring (I : Inv h T own L) {s : Nat} {xs : List Nat} (hs : T.lists s = some xs) {u v : List Nat} {a : Nat}
    (hu : s :: xs = u ++ a :: v) : nextNode h a = some v.head? := by
  have hl := I.link s xs hs
  have e1 : s :: (xs ++ [s]) = u ++ a :: (v ++ [s]) := by rw [← List.cons_append, hu]; simp
  rw [e1] at hl
  have ho : ∀ b ∈ u ++ a :: v, own b = some s := fun b hb => (I.memb s xs hs b).1 (hu ▸ hb)
  have la := live_own I (ho a (by simp))
  cases v with
  | nil =>
    have hls := live_own I ((I.memb s xs hs s).1 (by simp))
    have h2 := (I.sent s hls).2 (by simp [hs])
    simp [nextNode, require, la, (link_at hl).1, deref, hls, h2]
  | cons b v =>
    have hlb := live_own I (ho b (by simp))
    have hb : b ∈ xs := by
      have := congrArg List.tail hu
      cases u <;> simp at this <;> rw [this] <;> simp
    have h2 := sent_node I (I.node s xs b hs hb)
    simp [nextNode, require, la, (link_at hl).1, deref, hlb, h2]

theorem prev_ring (I : Inv h T own L) {s : Nat} {xs : List Nat} (hs : T.lists s = some xs) {u v : List Nat} {a : Nat}
    (hu : xs ++ [s] = u ++ a :: v) : previousNode h a = some u.getLast? := by
  have hl := I.link s xs hs
  rw [hu] at hl
  have ho : ∀ b ∈ u ++ a :: v, own b = some s := fun b hb => (I.memb s xs hs b).1 (by
    rw [← hu] at hb; simp at hb ⊢; grind)
  have la := live_own I (ho a (by simp))
  rcases List.eq_nil_or_concat u with rfl | ⟨u', b, rfl⟩
  · have hls := live_own I ((I.memb s xs hs s).1 (by simp))
    have h2 := (I.sent s hls).2 (by simp [hs])
    have := link_at (A := []) hl
    simp [previousNode, require, la, this.2, deref, hls, h2]
  · have hlb := live_own I (ho b (by simp))
    have hb : b ∈ xs := by
      have := congrArg List.dropLast hu
      rw [List.dropLast_concat, List.dropLast_append_cons] at this
      rw [this]; simp
    have h2 := sent_node I (I.node s xs b hs hb)
    have hl' : Link h.next h.prev ((s :: u') ++ b :: a :: v) := by simpa using hl
    simp [previousNode, require, la, (link_at hl').2, deref, hlb, h2]

theorem isEmpty_ok (I : Inv h T own L) {s : Nat} {xs : List Nat} (hs : T.lists s = some xs) :
    isEmpty h s = some xs.isEmpty := by
  have := next_ring I hs (u := []) (v := xs) rfl
  cases xs <;> simp_all [isEmpty]

theorem front_ok (I : Inv h T own L) {s : Nat} {xs : List Nat} (hs : T.lists s = some xs) :
    front h s = xs.head? := by
  have := next_ring I hs (u := []) (v := xs) rfl
  simp [front, this]

theorem back_ok (I : Inv h T own L) {s : Nat} {xs : List Nat} (hs : T.lists s = some xs) :
    back h s = xs.getLast? := by
  have := prev_ring I hs (u := xs) (v := []) rfl
  simp [back, this]

theorem walk_ok (s : Nat) : ∀ (v : List Nat) (a : Nat), Link h.next h.prev (a :: (v ++ [s])) → (∀ b ∈ v, h.live b = true ∧ b ≠ s) →
    h.live s = true → walkFrom h s (h.next a) = some v
  | [], a, hl, _, hs => by
    have h1 : h.next a = some s := hl.1
    rw [h1, walkFrom]
    simp [deref, hs]
  | b :: v, a, hl, hv, hs => by
    have h1 : h.next a = some b := hl.1
    rw [h1, walkFrom]
    have hb := hv b (by simp)
    have ih := walk_ok s v b hl.2.2 (fun c hc => hv c (by simp [hc])) hs
    simp [deref, hb.1, hb.2, ih]

theorem walkBack_ok (s : Nat) : ∀ (v : List Nat) (a : Nat), Link h.next h.prev (s :: (v.reverse ++ [a])) →
    (∀ b ∈ v, h.live b = true ∧ b ≠ s) → h.live s = true → walkBack h s (h.prev a) = some v
  | [], a, hl, _, hs => by
    have h1 : h.prev a = some s := hl.2.1
    rw [h1, walkBack]
    simp [deref, hs]
  | b :: v, a, hl, hv, hs => by
    have e : s :: ((b :: v).reverse ++ [a]) = (s :: v.reverse) ++ b :: [a] := by simp
    rw [e, link_append] at hl
    have h1 : h.prev a = some b := hl.2.2.1
    rw [h1, walkBack]
    have hb := hv b (by simp)
    have ih := walkBack_ok s v b (by simpa using hl.1) (fun c hc => hv c (by simp [hc])) hs
    simp [deref, hb.1, hb.2, ih]

theorem forward_ok (I : Inv h T own L) {s : Nat} {xs : List Nat} (hs : T.lists s = some xs) :
    forward h s = some xs ∧ backward h s = some xs.reverse := by
  have hls := live_own I ((I.memb s xs hs s).1 (by simp))
  have hall : ∀ b ∈ xs, h.live b = true ∧ b ≠ s := by
    intro b hb
    refine ⟨live_node I (I.node s xs b hs hb), ?_⟩
    rintro rfl; exact (List.nodup_cons.1 (I.nodup b xs hs)).1 hb
  have h1 := walk_ok s xs s (I.link s xs hs) hall hls
  have h2 := walkBack_ok s xs.reverse s (by rw [List.reverse_reverse]; exact I.link s xs hs)
    (fun b hb => hall b (by simpa using hb)) hls
  simp [forward, backward, require, hls, h1, h2]

/-! ### Creation and destruction -/

theorem newNode_ok (I : Inv h T own []) {a : Nat} (ha : T.Fresh a) :
    ∃ h' own', newNode h a = some h' ∧ Inv h' { T with nodes := upd T.nodes a true } own' [] := by
  have hl : h.live a = false := by
    cases hh : h.live a with
    | false => rfl
    | true => rw [I.live, ha.1, ha.2] at hh; simp at hh
  have on : own a = none := by
    cases ho : own a with
    | none => rfl
    | some s => have := live_own I ho; rw [hl] at this; simp at this
  have hne : ∀ s xs, T.lists s = some xs → ∀ b ∈ s :: xs, b ≠ a := by
    rintro s xs h1 b hb rfl
    rw [(I.memb s xs h1 b).1 hb] at on; simp at on
  refine ⟨_, own, by simp only [newNode, hl]; rfl, ?_⟩
  constructor
  · intro b; simp only [upd]; have := I.live b; split <;> simp_all
  · intro b hb
    simp only [upd] at hb ⊢
    by_cases e : b = a
    · simp [e, ha.1]
    · simp only [e, if_false] at hb ⊢; exact I.sent b hb
  · intro b hb
    simp only [upd] at hb
    by_cases e : b = a
    · rw [e]; exact ha.1
    · simp only [e, if_false] at hb; exact I.excl b hb
  · exact I.memb
  · exact I.nodup
  · intro s xs b h1 h2
    simp only [upd]; split
    · rfl
    · exact I.node s xs b h1 h2
  · exact I.ownd
  · intro s xs h1
    apply link_congr _ _ _ (I.link s xs h1)
    · intro b hb
      have := hne s xs h1 b (by have := (List.dropLast_sublist _).subset hb; simp at this ⊢; grind)
      simp [upd, this]
    · intro b hb
      have := hne s xs h1 b (by have := List.mem_of_mem_tail hb; simp at this ⊢; grind)
      simp [upd, this]
  · intro b hb ho hL
    simp only [upd] at hb ⊢
    by_cases e : b = a
    · simp [e]
    · simp only [e, if_false] at hb ⊢; exact I.free b hb ho hL

theorem newList_ok (I : Inv h T own []) {a : Nat} (ha : T.Fresh a) :
    ∃ h' own', newList h a = some h' ∧ Inv h' { T with lists := upd T.lists a (some []) } own' [] := by
  have hl : h.live a = false := by
    cases hh : h.live a with
    | false => rfl
    | true => rw [I.live, ha.1, ha.2] at hh; simp at hh
  have on : own a = none := by
    cases ho : own a with
    | none => rfl
    | some s => have := live_own I ho; rw [hl] at this; simp at this
  have hne : ∀ s xs, T.lists s = some xs → ∀ b ∈ s :: xs, b ≠ a := by
    rintro s xs h1 b hb rfl
    rw [(I.memb s xs h1 b).1 hb] at on; simp at on
  refine ⟨_, upd own a (some a), by simp only [newList, hl]; rfl, ?_⟩
  constructor
  · intro b; simp only [upd]; have := I.live b; split <;> simp_all
  · intro b hb
    simp only [upd] at hb ⊢
    by_cases e : b = a
    · simp [e]
    · simp only [e, if_false] at hb ⊢; exact I.sent b hb
  · intro b hb
    have : b ≠ a := by rintro rfl; simp only at hb; rw [ha.2] at hb; simp at hb
    simp only [upd, this, if_false]; exact I.excl b hb
  · intro s xs h1 b
    simp only [upd] at h1 ⊢
    by_cases e : s = a
    · subst e
      simp at h1; subst h1
      by_cases e2 : b = s
      · simp [e2]
      · simp only [e2, if_false, List.mem_cons, List.not_mem_nil, or_self, false_iff]
        intro h3
        have := I.ownd b s h3; rw [ha.1] at this; simp at this
    · simp only [e, if_false] at h1
      by_cases e2 : b = a
      · subst e2
        simp only [if_true, Option.some.injEq]
        constructor
        · intro h3; exact absurd rfl (hne s xs h1 b h3)
        · intro h3; exact absurd h3.symm e
      · simp only [e2, if_false]; exact I.memb s xs h1 b
  · intro s xs h1
    simp only [upd] at h1
    by_cases e : s = a
    · simp [e] at h1; subst h1; simp
    · simp only [e, if_false] at h1; exact I.nodup s xs h1
  · intro s xs b h1 h2
    simp only [upd] at h1
    by_cases e : s = a
    · simp [e] at h1; subst h1; simp at h2
    · simp only [e, if_false] at h1; exact I.node s xs b h1 h2
  · intro b s h1
    simp only [upd] at h1 ⊢
    by_cases e2 : b = a
    · simp [e2] at h1; simp [h1]
    · simp only [e2, if_false] at h1
      split
      · rfl
      · exact I.ownd b s h1
  · intro s xs h1
    simp only [upd] at h1
    by_cases e : s = a
    · simp [e] at h1; subst h1; simp [Link, upd, e]
    · simp only [e, if_false] at h1
      apply link_congr _ _ _ (I.link s xs h1)
      · intro b hb
        have := hne s xs h1 b (by have := (List.dropLast_sublist _).subset hb; simp at this ⊢; grind)
        simp [upd, this]
      · intro b hb
        have := hne s xs h1 b (by have := List.mem_of_mem_tail hb; simp at this ⊢; grind)
        simp [upd, this]
  · intro b hb ho hL
    have e : b ≠ a := by rintro rfl; simp only at hb; rw [ha.2] at hb; simp at hb
    simp only [upd, e, if_false] at ho ⊢
    exact I.free b hb ho hL

theorem deleteNode_ok (I : Inv h T own []) {a : Nat} (ha : T.nodes a = true) (hfree : ¬ T.InList a) :
    ∃ h' own', deleteNode h a = some h' ∧ Inv h' { T with nodes := upd T.nodes a false } own' [] := by
  have hno : isInAList h a = false := by
    cases hh : isInAList h a with
    | false => rfl
    | true => exact absurd ((isInAList_iff I ha).1 hh) hfree
  refine ⟨_, own, by simp [deleteNode, require, live_node I ha, sent_node I ha, hno]; rfl, ?_⟩
  constructor
  · intro b
    simp only [upd]
    by_cases e : b = a
    · simp [e, I.excl a ha]
    · simp only [e, if_false]; exact I.live b
  · intro b hb
    simp only [upd] at hb
    by_cases e : b = a
    · simp [e] at hb
    · simp only [e, if_false] at hb; exact I.sent b hb
  · intro b hb
    simp only [upd] at hb
    by_cases e : b = a
    · simp [e] at hb
    · simp only [e, if_false] at hb; exact I.excl b hb
  · exact I.memb
  · exact I.nodup
  · intro s xs b h1 h2
    have : b ≠ a := by rintro rfl; exact hfree ⟨s, xs, h1, h2⟩
    simp only [upd, this, if_false]; exact I.node s xs b h1 h2
  · exact I.ownd
  · exact I.link
  · intro b hb
    simp only [upd] at hb
    by_cases e : b = a
    · simp [e] at hb
    · simp only [e, if_false] at hb; exact I.free b hb

theorem clear_ok {l : Nat} : ∀ (xs : List Nat) (h : Heap) (T : State) (own : Nat → Option Nat), Inv h T own [] → T.lists l = some xs →
    ∃ h' own', clear l h = some h' ∧ Inv h' { T with lists := upd T.lists l (some []) } own' []
  | [], h, T, own, I, hs => by
    refine ⟨h, own, ?_, ?_⟩
    · rw [clear]; simp [isEmpty_ok I hs]
    · have : upd T.lists l (some []) = T.lists := by
        funext b; unfold upd; split
        · rename_i e; rw [e, hs]
        · rfl
      rw [this]; exact I
  | n :: xs, h, T, own, I, hs => by
    have hin : T.InList n := ⟨l, _, hs, by simp⟩
    have ho : own n = some l := (I.memb l _ hs n).1 (by simp)
    obtain ⟨h1, own1, e1, I1⟩ := remove_ok I hin
    have hnd := I.nodup l _ hs
    have hs1 : (Spec.remove n T).lists l = some xs := by
      simp only [Spec.remove, hs, Option.map_some, Option.some.injEq]
      simp only [List.nodup_cons] at hnd
      have h3 := without_not_mem n xs hnd.2.1
      have h4 : without n (n :: xs) = without n xs := by simp [without]
      rw [h4, h3]
    obtain ⟨h2, own2, e2, I2⟩ := clear_ok xs h1 (Spec.remove n T) own1 I1 hs1
    refine ⟨h2, own2, ?_, ?_⟩
    · rw [clear]; simp [isEmpty_ok I hs, front_ok I hs, e1, e2]
    · have : upd (Spec.remove n T).lists l (some []) = upd T.lists l (some []) := by
        funext b
        unfold upd
        split
        · rfl
        · rename_i hne
          simp only [Spec.remove]
          cases hb : T.lists b with
          | none => rfl
          | some ys => simp [without_not_mem _ _ (not_mem_other I ho hb hne).2]
      rw [this] at I2
      exact I2

theorem deleteList_ok (I : Inv h T own []) {l : Nat} (hs : (T.lists l).isSome) :
    ∃ h' own', deleteList h l = some h' ∧ Inv h' { T with lists := upd T.lists l none } own' [] := by
  obtain ⟨xs, hx⟩ := Option.isSome_iff_exists.1 hs
  obtain ⟨h1, own1, e1, I1⟩ := clear_ok xs h T own I hx
  have hls := (I.live l).2 (Or.inl hs)
  have hsent := (I.sent l hls).2 hs
  have hx1 : upd T.lists l (some []) l = some [] := by simp [upd]
  have hl0 : T.nodes l = false := by
    cases hh : T.nodes l with
    | false => rfl
    | true => rw [I.excl l hh] at hs; simp at hs
  refine ⟨_, upd own1 l none, by simp [deleteList, require, hsent, e1]; rfl, ?_⟩
  have hne : ∀ s xs, s ≠ l → T.lists s = some xs → l ∉ s :: xs := by
    intro s xs h1 h2 h3
    have h4 := (I1.memb s xs (by simp [upd, h1, h2]) l).1 h3
    have h5 := (I1.memb l [] hx1 l).1 (by simp)
    rw [h4] at h5; simp at h5; exact h1 h5
  constructor
  · intro b
    have := I1.live b
    simp only [upd] at this ⊢
    by_cases e : b = l
    · simp [e, hl0]
    · simp only [e, if_false] at this ⊢; exact this
  · intro b hb
    simp only [upd] at hb
    by_cases e : b = l
    · simp [e] at hb
    · simp only [e, if_false] at hb
      have := I1.sent b hb
      simp only [upd, e, if_false] at this ⊢; exact this
  · intro b hb
    have := I1.excl b hb
    simp only [upd] at this ⊢
    split
    · rfl
    · rename_i e; simpa [e] using this
  · intro s xs h1 b
    simp only [upd] at h1
    by_cases e : s = l
    · simp [e] at h1
    · simp only [e, if_false] at h1
      have h2 := I1.memb s xs (by simp [upd, e, h1]) b
      simp only [upd]
      by_cases e2 : b = l
      · subst e2
        simp only [if_true, reduceCtorEq, iff_false]
        exact hne s xs e h1
      · simp only [e2, if_false]; exact h2
  · intro s xs h1
    simp only [upd] at h1
    by_cases e : s = l
    · simp [e] at h1
    · simp only [e, if_false] at h1; exact I1.nodup s xs (by simp [upd, e, h1])
  · intro s xs b h1 h2
    simp only [upd] at h1
    by_cases e : s = l
    · simp [e] at h1
    · simp only [e, if_false] at h1; exact I1.node s xs b (by simp [upd, e, h1]) h2
  · intro b s h1
    simp only [upd] at h1 ⊢
    by_cases e2 : b = l
    · simp [e2] at h1
    · simp only [e2, if_false] at h1
      have h2 := I1.ownd b s h1
      by_cases e : s = l
      · subst e
        have h3 := (I1.memb s [] hx1 b).2 h1
        simp at h3; exact absurd h3 e2
      · simp only [upd, e, if_false] at h2 ⊢; exact h2
  · intro s xs h1
    simp only [upd] at h1
    by_cases e : s = l
    · simp [e] at h1
    · simp only [e, if_false] at h1; exact I1.link s xs (by simp [upd, e, h1])
  · intro b hb ho hL
    have e : b ≠ l := by
      rintro rfl
      simp only at hb; rw [hl0] at hb; simp at hb
    simp only [upd, e, if_false] at ho
    exact I1.free b hb ho hL

/-! ### Moving whole lists and ranges -/

theorem ends_of_ne {ys : List Nat} (h : ys ≠ []) : ∃ f e, ys.head? = some f ∧ ys.getLast? = some e :=
  ⟨ys.head h, ys.getLast h, List.head?_eq_some_head h, List.getLast?_eq_some_getLast h⟩

theorem heap_ext {a b : Heap} (h1 : a.live = b.live) (h2 : ∀ i, a.next i = b.next i) (h3 : ∀ i, a.prev i = b.prev i)
    (h4 : a.sent = b.sent) : a = b := by
  cases a; cases b; simp_all; exact ⟨funext h2, funext h3⟩

theorem moveAssignList_ok (I : Inv h T own []) {l m : Nat} (hl : T.lists l = some []) (hm : (T.lists m).isSome) :
    ∃ h' own', replaceWith h m l = some h' ∧
      Inv h' { T with lists := upd (upd T.lists m (some [])) l (T.lists m) } own' [] := by
  obtain ⟨ys, hy⟩ := Option.isSome_iff_exists.1 hm
  have om := (I.memb m ys hy m).1 (by simp)
  have ol := (I.memb l [] hl l).1 (by simp)
  have lm := live_own I om
  have ll := live_own I ol
  have sm := (I.sent m lm).2 hm
  have sl := (I.sent l ll).2 (by simp [hl])
  have lnk : h.next l = some l ∧ h.prev l = some l := by
    have := I.link l [] hl; exact ⟨this.1, this.2.1⟩
  by_cases hys : ys = []
  · subst hys
    have lnm : h.next m = some m ∧ h.prev m = some m := by
      have := I.link m [] hy; exact ⟨this.1, this.2.1⟩
    refine ⟨h, own, ?_, ?_⟩
    · simp [replaceWith, replaceAsserts, isEmptyList, require, lm, ll, sm, sl, lnk, lnm]
    · have : upd (upd T.lists m (some [])) l (T.lists m) = T.lists := by
        funext b; unfold upd; split
        · rename_i e; rw [e, hy, hl]
        · split
          · rename_i e; rw [e, hy]
          · rfl
      rw [this]; exact I
  · have hne : m ≠ l := by rintro rfl; rw [hy] at hl; simp at hl; exact hys hl
    obtain ⟨f, e, hf, he⟩ := ends_of_ne hys
    obtain ⟨⟨own1, I1, Lo, hown⟩, n1, n2, n3, n4, lx, ly, lf, le, nx, ny, _⟩ :=
      cut_ok I (A := []) (B := []) (x := m) (y := m) (seg := ys) (xs' := []) hy (by simp) (by simp) hf he
    have nl : l ∉ ys := (not_mem_other I ol hy hne).2
    obtain ⟨own2, I2⟩ := attach_ok I1 Lo (s := l) (xs := []) (xs' := ys) (A := []) (B := []) (x := l) (y := l)
      (by simp [upd, Ne.symm hne, hl]) (by simp) (by simp)
    have fm := head_mem hf
    have em := last_mem he
    have fl : f ≠ l := by rintro rfl; exact nl fm
    have el : e ≠ l := by rintro rfl; exact nl em
    have fmm : f ≠ m := by rintro rfl; exact nx fm
    have emm : e ≠ m := by rintro rfl; exact nx em
    refine ⟨_, own2, ?_, by rw [hy]; exact I2⟩
    have : replaceWith h m l = some ⟨h.live, upd (upd (upd h.next l (some f)) e (some l)) m (some m),
        upd (upd (upd h.prev l (some e)) f (some l)) m (some m), h.sent⟩ := by
      simp [replaceWith, replaceAsserts, isEmptyList, takePlace, resetSelf, require, setNext, setPrev, deref, lm, ll, sm, sl,
        lnk, n1, n4, lf, le, upd, hne, Ne.symm hne, fl, el, fmm, emm, Ne.symm fl, Ne.symm el, Ne.symm fmm, Ne.symm emm]
    rw [this]
    congr 1
    refine heap_ext rfl ?_ ?_ rfl
    · intro i; simp only [attachHeap, cutHeap, upd]; grind
    · intro i; simp only [attachHeap, cutHeap, upd]; grind

theorem moveBefore_ok (I : Inv h T own []) {pos l : Nat} {ys : List Nat} (hp : T.Pos pos) (hy : T.lists l = some ys)
    (hpl : pos ≠ l) (hpy : pos ∉ ys) :
    ∃ h' own' r, moveBefore h pos l = some (h', r) ∧ r = some (ys.head?.getD pos) ∧
      Inv h' (Spec.putBefore ys pos { T with lists := upd T.lists l (some []) }) own' [] := by
  have ol := (I.memb l ys hy l).1 (by simp)
  have ll := live_own I ol
  by_cases hys : ys = []
  · subst hys
    have hT : ({ T with lists := upd T.lists l (some []) } : State) = T := by
      have : upd T.lists l (some []) = T.lists := by
        funext b; unfold upd; split
        · rename_i e; rw [e, hy]
        · rfl
      rw [this]
    have hT2 : Spec.putBefore [] pos T = T := by
      have hins : ∀ xs, insBefore [] pos xs = xs := by
        intro xs; induction xs with
        | nil => rfl
        | cons a xs ih => simp [insBefore, ih]
      have : (fun b => (T.lists b).map (fun xs => if b = pos then xs ++ [] else insBefore [] pos xs)) = T.lists := by
        funext b
        cases T.lists b with
        | none => rfl
        | some xs => simp [hins]
      unfold Spec.putBefore; rw [this]
    refine ⟨h, own, some pos, ?_, rfl, ?_⟩
    · simp [moveBefore, isEmpty_ok I hy]
    · rw [hT, hT2]; exact I
  · obtain ⟨f, e, hf, he⟩ := ends_of_ne hys
    obtain ⟨⟨own1, I1, Lo, hown⟩, n1, n2, n3, n4, lx, ly, lf, le, nx, ny, _⟩ :=
      cut_ok I (A := []) (B := []) (x := l) (y := l) (seg := ys) (xs' := []) hy (by simp) (by simp) hf he
    have hp1 : ({ T with lists := upd T.lists l (some []) } : State).Pos pos := by
      rcases hp with hp | ⟨s, xs, h1, h2⟩
      · left; simp [upd, hpl, hp]
      · right
        have : s ≠ l := by rintro rfl; rw [hy] at h1; simp at h1; subst h1; exact hpy h2
        exact ⟨s, xs, by simp [upd, this, h1], h2⟩
    obtain ⟨s, xs, A, x, B, h1, h2, h3, h4⟩ := split_before I1 hp1
    obtain ⟨xs', h4, h5⟩ := h4 ys
    obtain ⟨own2, I2⟩ := attach_ok I1 Lo h1 h3 h5
    have ownr : ∀ a ∈ A ++ x :: ([] ++ pos :: B), own1 a = some s := fun a ha => (I1.memb s xs h1 a).1 (mem_ring h3 a ha)
    have hlnk := I1.link s xs h1
    rw [h3] at hlnk
    have hxp := link_at hlnk
    have sl : s ≠ l := by
      rintro rfl
      simp only [upd, if_true, Option.some.injEq] at h1
      subst h1
      have := (I1.memb s [] (by simp [upd]) pos).2 h2
      simp at this; exact hpl this
    have ol1 : own1 l = some l := (I1.memb l [] (by simp [upd]) l).1 (by simp)
    have xl : x ≠ l := by
      rintro rfl; rw [ownr x (by simp)] at ol1; simp at ol1; exact sl ol1
    have xy : x ∉ ys := by
      intro hh; have := (Lo.nodes x hh).2; rw [ownr x (by simp)] at this; simp at this
    have fm := head_mem hf
    have em := last_mem he
    have fx : f ≠ x := by rintro rfl; exact xy fm
    have ex : e ≠ x := by rintro rfl; exact xy em
    have fp : f ≠ pos := by rintro rfl; exact hpy fm
    have ep : e ≠ pos := by rintro rfl; exact hpy em
    have fl : f ≠ l := by rintro rfl; exact nx fm
    have el : e ≠ l := by rintro rfl; exact nx em
    have hpp : h.prev pos = some x := by
      have := hxp.2; simpa [cutHeap, upd, hpl] using this
    have lx' : h.live x = true := live_own I1 (ownr x (by simp))
    have lp' : h.live pos = true := live_own I1 h2
    refine ⟨_, own2, some f, ?_, by rw [hf]; rfl, by rw [h4]; exact I2⟩
    have : moveBeforeCore h pos l = some ⟨h.live, upd (upd (upd h.next x (some f)) e (some pos)) l (some l),
        upd (upd (upd h.prev f (some x)) pos (some e)) l (some l), h.sent⟩ := by
      simp [moveBeforeCore, require, setNext, setPrev, deref, ll, lp', lx', lf, le, n1, n4, hpp, upd, Ne.symm fp]
    have hne : ys.isEmpty = false := by simp [hys]
    simp only [moveBefore, isEmpty_ok I hy, hne, this, n1, Option.bind_eq_bind, Option.bind_some, Bool.false_eq_true, if_false,
      Option.some.injEq, Prod.mk.injEq, and_true]
    refine heap_ext rfl ?_ ?_ rfl
    · intro i; simp only [attachHeap, cutHeap, upd]; grind
    · intro i; simp only [attachHeap, cutHeap, upd]; grind

theorem dropWhile_range (first last : Nat) (a seg b : List Nat) (h1 : first ∉ a) (h2 : last ∉ first :: seg)
    (h3 : b.head? = some last ∨ b = []) : Spec.range first last (a ++ first :: seg ++ b) = first :: seg := by
  unfold Spec.range
  rw [List.append_assoc, List.dropWhile_append_of_pos (by
    intro c hc; simp; rintro rfl; exact h1 hc)]
  rw [List.cons_append, List.dropWhile_cons_of_neg (by simp), ← List.cons_append, List.takeWhile_append_of_pos (by
    intro c hc; simp; rintro rfl; exact h2 hc)]
  rcases h3 with h3 | rfl
  · cases b with
    | nil => simp at h3
    | cons c b => simp at h3; subst h3; simp
  · simp

theorem splice_ok (I : Inv h T own []) {l wher other first last : Nat} {xs ys a seg b : List Nat} (hfl : first ≠ last)
    (hol : other ≠ l) (hx : T.lists l = some xs) (hy : T.lists other = some ys) (hw : wher = l ∨ wher ∈ xs)
    (hys : ys = a ++ first :: seg ++ b) (hlast : last = b.head?.getD other) :
    ∃ h' own', splice h l wher other first last = some h' ∧
      Inv h' (Spec.apply T (.splice l wher other first last)) own' [] := by
  have hnd := I.nodup other ys hy
  obtain ⟨A, x, hA⟩ := split_last (other :: a) (by simp)
  obtain ⟨y, B, hB⟩ : ∃ y B, b ++ [other] = y :: B := by cases b <;> simp
  have hyl : y = last := by cases b <;> simp_all
  subst hyl
  obtain ⟨e, he⟩ : ∃ e, (first :: seg).getLast? = some e := ⟨_, List.getLast?_eq_some_getLast (by simp)⟩
  have hC : other :: (ys ++ [other]) = A ++ x :: ((first :: seg) ++ y :: B) := by
    rw [hys]
    have : other :: (a ++ first :: seg ++ b ++ [other]) = (other :: a) ++ (first :: seg ++ (b ++ [other])) := by simp
    rw [this, hA, hB]; simp
  have hC' : other :: ((a ++ b) ++ [other]) = A ++ x :: ([] ++ y :: B) := by
    have : other :: (a ++ b ++ [other]) = (other :: a) ++ (b ++ [other]) := by simp
    rw [this, hA, hB]; simp
  obtain ⟨⟨own1, I1, Lo, hown⟩, n1, n2, n3, n4, lx, ly, lf, le, nx, ny, ownr0⟩ :=
    cut_ok I hy hC hC' (f := first) rfl he
  have hseg : Spec.range first y ys = first :: seg := by
    rw [hys]
    apply dropWhile_range
    · have := (List.nodup_cons.1 hnd).2
      rw [hys, List.append_assoc, List.nodup_append] at this
      intro hh; exact this.2.2 first hh first (by simp) rfl
    · exact ny
    · cases b with
      | nil => exact Or.inr rfl
      | cons c b => left; simp at hB; simp [hB.1]
  have hfilter : ys.filter (fun c => decide (c ∉ first :: seg)) = a ++ b := by
    have := (List.nodup_cons.1 hnd).2
    rw [hys, List.nodup_append, List.nodup_append] at this
    rw [hys, List.filter_append, List.filter_append]
    have f1 : a.filter (fun c => decide (c ∉ first :: seg)) = a := by
      rw [List.filter_eq_self]; intro c hc; simp only [decide_eq_true_eq]; intro hh
      exact this.1.2.2 c hc c hh rfl
    have f2 : b.filter (fun c => decide (c ∉ first :: seg)) = b := by
      rw [List.filter_eq_self]; intro c hc; simp only [decide_eq_true_eq]; intro hh
      exact this.2.2 c (by simp only [List.mem_append]; exact Or.inr hh) c hc rfl
    have f3 : (first :: seg).filter (fun c => decide (c ∉ first :: seg)) = [] := by
      rw [List.filter_eq_nil_iff]; intro c hc; simp only [decide_eq_true_eq]; exact fun hh => hh hc
    rw [f1, f2, f3]; simp
  have hp1 : ({ T with lists := upd T.lists other (some (a ++ b)) } : State).Pos wher := by
    rcases hw with rfl | hw
    · left; simp [upd, Ne.symm hol, hx]
    · right; exact ⟨l, xs, by simp [upd, Ne.symm hol, hx], hw⟩
  obtain ⟨s, zs, A2, y2, B2, h1, h2, h3, h4⟩ := split_after I1 hp1
  obtain ⟨xs', h4, h5⟩ := h4 (first :: seg)
  obtain ⟨own2, I2⟩ := attach_ok I1 Lo h1 h3 h5
  have ownr : ∀ c ∈ A2 ++ wher :: ([] ++ y2 :: B2), own1 c = some s := fun c hc => (I1.memb s zs h1 c).1 (mem_ring h3 c hc)
  have hlnk := I1.link s zs h1
  rw [h3] at hlnk
  have hxp := link_at hlnk
  have sl : s = l := by
    have := (I1.memb l xs (by simp [upd, Ne.symm hol, hx]) wher).1 (by rcases hw with rfl | hw <;> simp [*])
    rw [h2] at this; simpa using this
  subst sl
  have so : ∀ c ∈ A2 ++ wher :: ([] ++ y2 :: B2), c ∉ A ++ x :: ((first :: seg) ++ y :: B) := by
    intro c hc hh
    have o1 := ownr c hc
    have o2 := ownr0 c hh
    by_cases hcs : c ∈ first :: seg
    · rw [(Lo.nodes c hcs).2] at o1; simp at o1
    · rw [hown c hcs, o2] at o1; simp at o1; exact hol o1
  have w1 := so wher (by simp)
  have w2 := so y2 (by simp)
  have em := last_mem he
  simp only [List.mem_append, List.mem_cons, not_or] at w1 w2
  have hem : e = first ∨ e ∈ seg := by simpa using em
  have e1 : e ≠ wher := by rintro rfl; rcases hem with rfl | hem <;> grind
  have e2 : e ≠ y2 := by rintro rfl; rcases hem with rfl | hem <;> grind
  have ex : e ≠ x := by rintro rfl; exact nx em
  have ey : e ≠ y := by rintro rfl; exact ny em
  have fx : first ≠ x := by rintro rfl; exact nx (by simp)
  have hwn : h.next wher = some y2 := by
    have := hxp.1; simpa [cutHeap, upd, w1.2.1] using this
  have lw : h.live wher = true := live_own I1 (ownr wher (by simp))
  have ly2 : h.live y2 = true := live_own I1 (ownr y2 (by simp))
  refine ⟨attachHeap (cutHeap h x y) wher y2 first e, own2, ?_, ?_⟩
  rotate_left
  · have : Spec.apply T (.splice s wher other first y) =
        Spec.putAfter (first :: seg) wher { T with lists := upd T.lists other (some (a ++ b)) } := by
      simp only [Spec.apply, hfl, hol, or_self, if_false, hy, Option.getD_some, hseg, hfilter]
    rw [this, h4]; exact I2
  · have : spliceCore h wher first y = some ⟨h.live, upd (upd (upd h.next wher (some first)) e (some y2)) x (some y),
        upd (upd (upd h.prev first (some wher)) y2 (some e)) y (some x), h.sent⟩ := by
      have q1 : y ≠ first := Ne.symm hfl
      have q2 : y ≠ y2 := by rintro rfl; exact w2.2.2.2.1 rfl
      simp [spliceCore, require, setNext, setPrev, deref, lw, lf, ly, ly2, lx, le, n1, n2, n3, n4, hwn, upd, q1, q2]
    simp only [splice, hfl, hol, if_false, this, Option.some.injEq]
    refine heap_ext rfl ?_ ?_ rfl
    · intro i; simp only [attachHeap, cutHeap, upd]; grind
    · intro i; simp only [attachHeap, cutHeap, upd]; grind

end Verif.IList
