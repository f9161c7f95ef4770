import Verif.IList.Lemmas
set_option linter.unusedSimpArgs false
set_option linter.unusedVariables false

namespace Verif.IList
open Spec

/-! ### Sequences -/

theorem insBefore_mem (ys : List Nat) (pos : Nat) (u v : List Nat) (h : pos ∉ u) :
    insBefore ys pos (u ++ pos :: v) = u ++ (ys ++ pos :: v) := by
  induction u with
  | nil => simp [insBefore]
  | cons a u ih =>
    simp only [List.mem_cons, not_or] at h
    simp [insBefore, Ne.symm h.1, ih h.2]

theorem insAfter_mem (ys : List Nat) (pos : Nat) (u v : List Nat) (h : pos ∉ u) :
    insAfter ys pos (u ++ pos :: v) = u ++ pos :: (ys ++ v) := by
  induction u with
  | nil => simp [insAfter]
  | cons a u ih =>
    simp only [List.mem_cons, not_or] at h
    simp [insAfter, Ne.symm h.1, ih h.2]

theorem insBefore_not_mem (ys : List Nat) (pos : Nat) (u : List Nat) (h : pos ∉ u) : insBefore ys pos u = u := by
  induction u with
  | nil => rfl
  | cons a u ih =>
    simp only [List.mem_cons, not_or] at h
    simp [insBefore, Ne.symm h.1, ih h.2]

theorem insAfter_not_mem (ys : List Nat) (pos : Nat) (u : List Nat) (h : pos ∉ u) : insAfter ys pos u = u := by
  induction u with
  | nil => rfl
  | cons a u ih =>
    simp only [List.mem_cons, not_or] at h
    simp [insAfter, Ne.symm h.1, ih h.2]

theorem without_not_mem (n : Nat) (u : List Nat) (h : n ∉ u) : without n u = u := by
  unfold without
  rw [List.filter_eq_self]
  intro a ha; simp; rintro rfl; exact h ha

theorem exchange_not_mem (b a : Nat) (u : List Nat) (h : b ∉ u) :
    u.map (fun e => if e = b then a else e) = u := by
  rw [List.map_congr_left (g := id)]
  · simp
  · intro c hc; have : c ≠ b := by rintro rfl; exact h hc
    simp [this]

/-- Last element of a nonempty list, as a split. -/
theorem split_last (l : List Nat) (h : l ≠ []) : ∃ A x, l = A ++ [x] :=
  ⟨l.dropLast, l.getLast h, (List.dropLast_concat_getLast h).symm⟩

/-! ### Splitting rings -/
variable {h : Heap} {T : State} {own : Nat → Option Nat} {L : List Nat}

theorem own_pos (I : Inv h T own L) {pos : Nat} (hp : T.Pos pos) :
    ∃ s xs, T.lists s = some xs ∧ own pos = some s ∧ (s = pos ∨ s ≠ pos ∧ pos ∈ xs) := by
  rcases hp with hp | ⟨s, xs, h1, h2⟩
  · obtain ⟨xs, hx⟩ := Option.isSome_iff_exists.1 hp
    exact ⟨pos, xs, hx, (I.memb pos xs hx pos).1 (by simp), Or.inl rfl⟩
  · refine ⟨s, xs, h1, (I.memb s xs h1 pos).1 (by simp [h2]), Or.inr ⟨?_, h2⟩⟩
    rintro rfl; exact (List.nodup_cons.1 (I.nodup s xs h1)).1 h2

theorem not_mem_other (I : Inv h T own L) {a s s' : Nat} {ys : List Nat} (ho : own a = some s) (hs : T.lists s' = some ys)
    (hne : s' ≠ s) : s' ≠ a ∧ a ∉ ys := by
  have key : a ∉ s' :: ys := by
    intro hh; have := (I.memb s' ys hs a).1 hh; rw [ho] at this; simp at this; exact hne this.symm
  simp only [List.mem_cons, not_or] at key
  exact ⟨Ne.symm key.1, key.2⟩

theorem lists_upd (T : State) (f : Nat → List Nat → List Nat) (s : Nat) (xs xs' : List Nat) (hs : T.lists s = some xs)
    (h1 : f s xs = xs') (h2 : ∀ s' ys, s' ≠ s → T.lists s' = some ys → f s' ys = ys) :
    (fun l => (T.lists l).map (f l)) = upd T.lists s (some xs') := by
  funext l
  unfold upd
  split
  · rename_i e; subst e; simp [hs, h1]
  · rename_i e
    cases hl : T.lists l with
    | none => rfl
    | some ys => simp [h2 l ys e hl]

theorem split_before (I : Inv h T own L) {pos : Nat} (hp : T.Pos pos) : ∃ s xs A x B, T.lists s = some xs ∧
    own pos = some s ∧ s :: (xs ++ [s]) = A ++ x :: ([] ++ pos :: B) ∧
    ∀ ys, ∃ xs', putBefore ys pos T = { T with lists := upd T.lists s (some xs') } ∧
      s :: (xs' ++ [s]) = A ++ x :: (ys ++ pos :: B) := by
  obtain ⟨s, xs, h1, h2, h3⟩ := own_pos I hp
  rcases h3 with rfl | ⟨h3, h4⟩
  · obtain ⟨A, x, hA⟩ := split_last (s :: xs) (by simp)
    refine ⟨s, xs, A, x, [], h1, h2, ?_, fun ys => ⟨xs ++ ys, ?_, ?_⟩⟩
    · rw [← List.cons_append, hA]; simp
    · unfold putBefore
      rw [lists_upd T _ s xs (xs ++ ys) h1 (by simp)]
      intro s' zs hne hz
      rw [if_neg (not_mem_other I h2 hz hne).1, insBefore_not_mem _ _ _ (not_mem_other I h2 hz hne).2]
    · have : s :: (xs ++ ys ++ [s]) = (s :: xs) ++ (ys ++ [s]) := by simp
      rw [this, hA]; simp
  · obtain ⟨u, v, hu, huv⟩ := List.eq_append_cons_of_mem h4
    subst hu
    obtain ⟨A, x, hA⟩ := split_last (s :: u) (by simp)
    refine ⟨s, _, A, x, v ++ [s], h1, h2, ?_, fun ys => ⟨u ++ (ys ++ pos :: v), ?_, ?_⟩⟩
    · rw [List.append_assoc, ← List.cons_append, hA]; simp
    · unfold putBefore
      rw [lists_upd T _ s _ _ h1 (by rw [if_neg h3, insBefore_mem _ _ _ _ huv])]
      intro s' zs hne hz
      rw [if_neg (not_mem_other I h2 hz hne).1, insBefore_not_mem _ _ _ (not_mem_other I h2 hz hne).2]
    · have : s :: (u ++ (ys ++ pos :: v) ++ [s]) = (s :: u) ++ (ys ++ pos :: v ++ [s]) := by simp
      rw [this, hA]; simp

theorem split_after (I : Inv h T own L) {pos : Nat} (hp : T.Pos pos) : ∃ s xs A y B, T.lists s = some xs ∧
    own pos = some s ∧ s :: (xs ++ [s]) = A ++ pos :: ([] ++ y :: B) ∧
    ∀ ys, ∃ xs', putAfter ys pos T = { T with lists := upd T.lists s (some xs') } ∧
      s :: (xs' ++ [s]) = A ++ pos :: (ys ++ y :: B) := by
  obtain ⟨s, xs, h1, h2, h3⟩ := own_pos I hp
  rcases h3 with rfl | ⟨h3, h4⟩
  · obtain ⟨y, B, hB⟩ : ∃ y B, xs ++ [s] = y :: B := by cases xs <;> simp
    refine ⟨s, xs, [], y, B, h1, h2, ?_, fun ys => ⟨ys ++ xs, ?_, ?_⟩⟩
    · rw [hB]; simp
    · unfold putAfter
      rw [lists_upd T _ s xs (ys ++ xs) h1 (by simp)]
      intro s' zs hne hz
      rw [if_neg (not_mem_other I h2 hz hne).1, insAfter_not_mem _ _ _ (not_mem_other I h2 hz hne).2]
    · rw [List.append_assoc, hB]; simp
  · obtain ⟨u, v, hu, huv⟩ := List.eq_append_cons_of_mem h4
    subst hu
    obtain ⟨y, B, hB⟩ : ∃ y B, v ++ [s] = y :: B := by cases v <;> simp
    refine ⟨s, _, s :: u, y, B, h1, h2, ?_, fun ys => ⟨u ++ pos :: (ys ++ v), ?_, ?_⟩⟩
    · simp [hB]
    · unfold putAfter
      rw [lists_upd T _ s _ _ h1 (by rw [if_neg h3, insAfter_mem _ _ _ _ huv])]
      intro s' zs hne hz
      rw [if_neg (not_mem_other I h2 hz hne).1, insAfter_not_mem _ _ _ (not_mem_other I h2 hz hne).2]
    · simp [hB]

theorem split_mem (I : Inv h T own L) {n : Nat} (hp : T.InList n) : ∃ s xs A x y B, T.lists s = some xs ∧
    own n = some s ∧ s :: (xs ++ [s]) = A ++ x :: ([n] ++ y :: B) ∧
    (∃ xs', remove n T = { T with lists := upd T.lists s (some xs') } ∧
      s :: (xs' ++ [s]) = A ++ x :: ([] ++ y :: B)) ∧
    ∀ a, ∃ xs', exchange n a T = { T with lists := upd T.lists s (some xs') } ∧
      s :: (xs' ++ [s]) = A ++ x :: ([a] ++ y :: B) := by
  obtain ⟨s, xs, h1, h4⟩ := hp
  have h2 := (I.memb s xs h1 n).1 (by simp [h4])
  obtain ⟨u, v, hu, huv⟩ := List.eq_append_cons_of_mem h4
  subst hu
  have hv : n ∉ v := by
    have := (List.nodup_cons.1 (I.nodup s _ h1)).2
    rw [List.nodup_append, List.nodup_cons] at this
    exact this.2.1.1
  obtain ⟨A, x, hA⟩ := split_last (s :: u) (by simp)
  obtain ⟨y, B, hB⟩ : ∃ y B, v ++ [s] = y :: B := by cases v <;> simp
  refine ⟨s, _, A, x, y, B, h1, h2, ?_, ⟨u ++ v, ?_, ?_⟩, fun a => ⟨u ++ a :: v, ?_, ?_⟩⟩
  · have : s :: (u ++ n :: v ++ [s]) = (s :: u) ++ (n :: (v ++ [s])) := by simp
    rw [this, hA, hB]; simp
  · unfold remove
    rw [lists_upd T (fun _ => without n) s _ (u ++ v) h1]
    · have : without n (u ++ n :: v) = without n u ++ without n v := by simp [without, List.filter_append]
      rw [this, without_not_mem _ _ huv, without_not_mem _ _ hv]
    · intro s' zs hne hz
      exact without_not_mem _ _ (not_mem_other I h2 hz hne).2
  · have : s :: (u ++ v ++ [s]) = (s :: u) ++ (v ++ [s]) := by simp
    rw [this, hA, hB]; simp
  · unfold exchange
    rw [lists_upd T (fun _ xs => xs.map (fun e => if e = n then a else e)) s _ (u ++ a :: v) h1]
    · simp only [List.map_append, List.map_cons, if_true]
      rw [exchange_not_mem _ _ _ huv, exchange_not_mem _ _ _ hv]
    · intro s' zs hne hz
      exact exchange_not_mem _ _ _ (not_mem_other I h2 hz hne).2
  · have : s :: (u ++ a :: v ++ [s]) = (s :: u) ++ (a :: (v ++ [s])) := by simp
    rw [this, hA, hB]; simp

theorem link_at {nx pv : Nat → Option Nat} {A B : List Nat} {x y : Nat} (hl : Link nx pv (A ++ x :: y :: B)) :
    nx x = some y ∧ pv y = some x := by
  rw [link_append] at hl; exact ⟨hl.2.1, hl.2.2.1⟩

theorem live_own (I : Inv h T own L) {a s : Nat} (ho : own a = some s) : h.live a = true := by
  obtain ⟨xs, hx⟩ := Option.isSome_iff_exists.1 (I.ownd a s ho)
  rw [I.live]
  rcases List.mem_cons.1 ((I.memb s xs hx a).2 ho) with rfl | h1
  · simp [hx]
  · exact Or.inr (I.node s xs a hx h1)

theorem live_node (I : Inv h T own L) {a : Nat} (ho : T.nodes a = true) : h.live a = true := by
  rw [I.live]; exact Or.inr ho

theorem sent_node (I : Inv h T own L) {a : Nat} (ho : T.nodes a = true) : h.sent a = false := by
  have h1 := I.sent a (live_node I ho)
  rw [I.excl a ho] at h1
  cases hh : h.sent a with
  | false => rfl
  | true => simp [hh] at h1

theorem own_none (I : Inv h T own L) {a : Nat} (ha : T.nodes a = true) : own a = none ↔ ¬ T.InList a := by
  constructor
  · rintro h1 ⟨s, xs, h2, h3⟩
    have := (I.memb s xs h2 a).1 (by simp [h3]); rw [h1] at this; simp at this
  · intro h1
    cases ho : own a with
    | none => rfl
    | some s =>
      obtain ⟨xs, hx⟩ := Option.isSome_iff_exists.1 (I.ownd a s ho)
      rcases List.mem_cons.1 ((I.memb s xs hx a).2 ho) with rfl | h2
      · rw [I.excl a ha] at hx; simp at hx
      · exact absurd ⟨s, xs, hx, h2⟩ h1

theorem next_own (I : Inv h T own L) {a s : Nat} (ho : own a = some s) : ∃ b, h.next a = some b ∧ own b = some s := by
  obtain ⟨xs, hx⟩ := Option.isSome_iff_exists.1 (I.ownd a s ho)
  have hm := (I.memb s xs hx a).2 ho
  obtain ⟨u, v, hu, _⟩ := List.eq_append_cons_of_mem hm
  have hl := I.link s xs hx
  have : s :: (xs ++ [s]) = u ++ a :: (v ++ [s]) := by rw [← List.cons_append, hu]; simp
  rw [this] at hl
  have hall : ∀ b ∈ v ++ [s], own b = some s := by
    intro b hb
    apply (I.memb s xs hx b).1
    simp only [List.mem_append, List.mem_cons, List.not_mem_nil, or_false] at hb
    rcases hb with hb | rfl
    · rw [hu]; simp [hb]
    · simp
  cases hv : v with
  | nil => rw [hv] at hl; exact ⟨s, (link_at hl).1, hall s (by simp)⟩
  | cons b v' => rw [hv] at hl; exact ⟨b, (link_at hl).1, hall b (by simp [hv])⟩

theorem isInAList_iff (I : Inv h T own []) {a : Nat} (ha : T.nodes a = true) : isInAList h a = true ↔ T.InList a := by
  unfold isInAList
  cases ho : own a with
  | none =>
    rw [(I.free a ha ho (by simp)).1]
    simp [(own_none I ha).1 ho]
  | some s =>
    obtain ⟨b, hb, _⟩ := next_own I ho
    rw [hb]
    simp only [Option.isSome_some, true_iff]
    apply Classical.byContradiction
    intro hh; rw [(own_none I ha).2 hh] at ho; simp at ho

theorem isInAList_pos (I : Inv h T own L) {a : Nat} (ha : T.Pos a) : isInAList h a = true := by
  obtain ⟨s, xs, _, h2, _⟩ := own_pos I ha
  obtain ⟨b, hb, _⟩ := next_own I h2
  simp [isInAList, hb]

/-! ### The operations -/

theorem remove_ok (I : Inv h T own []) {n : Nat} (hp : T.InList n) :
    ∃ h' own', removeFromList h n = some h' ∧ Inv h' (Spec.remove n T) own' [] := by
  obtain ⟨s, xs, A, x, y, B, h1, h2, h3, ⟨xs', h4, h5⟩, _⟩ := split_mem I hp
  have hl := I.link s xs h1
  have hnode : T.nodes n = true := by obtain ⟨s, xs, a, b⟩ := hp; exact I.node s xs n a b
  have ownr : ∀ a ∈ A ++ x :: ([n] ++ y :: B), own a = some s := fun a ha => (I.memb s xs h1 a).1 (mem_ring h3 a ha)
  rw [h3] at hl
  have e1 := link_at hl
  have e2 : h.next n = some y ∧ h.prev y = some n := by
    apply link_at (A := A ++ [x]) (B := B); simpa using hl
  obtain ⟨_, _, f3, f4⟩ := seam_facts (I.nodup s xs h1) h3
  have nx : n ≠ x := by
    rw [List.nodup_append] at f3; simp only [List.nodup_cons, List.mem_append, List.mem_cons] at f3; grind
  have ny : n ≠ y := by
    rw [List.nodup_append] at f4
    simp only [List.singleton_append, List.nodup_cons, List.mem_append, List.mem_cons] at f4; grind
  have lx := live_own I (ownr x (by simp))
  have ly := live_own I (ownr y (by simp))
  have ln := live_own I h2
  have heval : removeFromList h n = some ⟨h.live, upd (upd h.next x (some y)) n none,
      upd (upd h.prev y (some x)) n none, h.sent⟩ := by
    simp [removeFromList, require, isInAList, setPrev, setNext, deref, e1, e2, lx, ly, ln, sent_node I hnode, upd, nx, ny]
  rw [h4]
  refine ⟨_, _, heval, inv_seam [] [] I h1 h3 h5 rfl rfl (by simp) (by simp) ?_ ?_ ?_ ?_⟩
  · intro a c1 c2 c3; simp at c2; simp [upd, c1, c2]
  · intro a c1 c2 c3; simp at c2; simp [upd, c1, c2]
  · simp [Link, upd, Ne.symm nx, Ne.symm ny]
  · intro a c1 c2 c3
    rcases c3 with c3 | c3
    · simp at c3; simp [upd, c3]
    · have hf := I.free a c3.2 c3.1 (by simp)
      have ax : a ≠ x := by rintro rfl; rw [ownr a (by simp)] at c3; simp at c3
      have ay : a ≠ y := by rintro rfl; rw [ownr a (by simp)] at c3; simp at c3
      simp [upd, ax, ay, hf]

theorem remove_self (I : Inv h T own []) {n : Nat} (hn : T.nodes n = true) (hp : ¬ T.InList n) : Spec.remove n T = T := by
  have : (fun l => (T.lists l).map (without n)) = T.lists := by
    funext l
    cases hl : T.lists l with
    | none => rfl
    | some xs =>
      simp only [Option.map_some, Option.some.injEq]
      exact without_not_mem _ _ (fun hh => hp ⟨l, xs, hl, hh⟩)
  unfold Spec.remove; rw [this]

theorem detach_ok (I : Inv h T own []) {n : Nat} (hn : T.nodes n = true) :
    ∃ h' own', detach h n = some h' ∧ Inv h' (Spec.remove n T) own' [] ∧ ¬ (Spec.remove n T).InList n := by
  have hno : ¬ (Spec.remove n T).InList n := by
    rintro ⟨l, xs, h1, h2⟩
    simp only [Spec.remove, Option.map_eq_some_iff] at h1
    obtain ⟨ys, h3, rfl⟩ := h1
    simp [without] at h2
  unfold detach
  by_cases hp : T.InList n
  · rw [if_pos ((isInAList_iff I hn).2 hp)]
    obtain ⟨h', own', h1, h2⟩ := remove_ok I hp
    exact ⟨h', own', h1, h2, hno⟩
  · rw [if_neg (fun hh => hp ((isInAList_iff I hn).1 hh))]
    refine ⟨h, own, rfl, ?_, hno⟩
    rw [remove_self I hn hp]; exact I

theorem pos_remove {n pos : Nat} (hp : T.Pos pos) (hne : n ≠ pos) : (Spec.remove n T).Pos pos := by
  rcases hp with hp | ⟨l, xs, h1, h2⟩
  · left; simpa [Spec.remove] using hp
  · right
    refine ⟨l, without n xs, by simp [Spec.remove, h1], ?_⟩
    simp only [without, List.mem_filter, decide_eq_true_eq]
    exact ⟨h2, Ne.symm hne⟩

theorem linkBefore_ok (I : Inv h T own []) {n pos : Nat} (hn : T.nodes n = true) (hfree : ¬ T.InList n) (hp : T.Pos pos) :
    ∃ h' own', linkBefore n pos h = some h' ∧ Inv h' (Spec.putBefore [n] pos T) own' [] := by
  obtain ⟨s, xs, A, x, B, h1, h2, h3, h4⟩ := split_before I hp
  obtain ⟨xs', h4, h5⟩ := h4 [n]
  have hl := I.link s xs h1
  have ownr : ∀ a ∈ A ++ x :: ([] ++ pos :: B), own a = some s := fun a ha => (I.memb s xs h1 a).1 (mem_ring h3 a ha)
  have on := (own_none I hn).2 hfree
  rw [h3] at hl
  have e1 := link_at hl
  have nx : n ≠ x := by rintro rfl; rw [ownr n (by simp)] at on; simp at on
  have np : n ≠ pos := by rintro rfl; rw [ownr n (by simp)] at on; simp at on
  have lx := live_own I (ownr x (by simp))
  have lp := live_own I h2
  have ln := live_node I hn
  have heval : linkBefore n pos h = some ⟨h.live, upd (upd h.next n (some pos)) x (some n),
      upd (upd h.prev n (some x)) pos (some n), h.sent⟩ := by
    simp [linkBefore, require, setPrev, setNext, deref, e1, lx, lp, ln, upd, nx, np]
  rw [h4]
  refine ⟨_, _, heval, inv_seam [] [] I h1 h3 h5 rfl rfl ?_ (by simp) ?_ ?_ ?_ ?_⟩
  · intro a ha; simp at ha; subst ha; exact ⟨hn, Or.inl on⟩
  · intro a c1 c2 c3; simp at c3; simp [upd, c1, c3]
  · intro a c1 c2 c3; simp at c3; simp [upd, c1, c3]
  · simp [Link, upd, nx, np]
  · intro a c1 c2 c3
    simp at c2 c3
    have hf := I.free a c3.2 c3.1 (by simp)
    have ax : a ≠ x := by rintro rfl; rw [ownr a (by simp)] at c3; simp at c3
    have ap : a ≠ pos := by rintro rfl; rw [ownr a (by simp)] at c3; simp at c3
    simp [upd, ax, ap, c2, hf]

theorem linkAfter_ok (I : Inv h T own []) {n pos : Nat} (hn : T.nodes n = true) (hfree : ¬ T.InList n) (hp : T.Pos pos) :
    ∃ h' own', linkAfter n pos h = some h' ∧ Inv h' (Spec.putAfter [n] pos T) own' [] := by
  obtain ⟨s, xs, A, y, B, h1, h2, h3, h4⟩ := split_after I hp
  obtain ⟨xs', h4, h5⟩ := h4 [n]
  have hl := I.link s xs h1
  have ownr : ∀ a ∈ A ++ pos :: ([] ++ y :: B), own a = some s := fun a ha => (I.memb s xs h1 a).1 (mem_ring h3 a ha)
  have on := (own_none I hn).2 hfree
  rw [h3] at hl
  have e1 := link_at hl
  have ny : n ≠ y := by rintro rfl; rw [ownr n (by simp)] at on; simp at on
  have np : n ≠ pos := by rintro rfl; rw [ownr n (by simp)] at on; simp at on
  have ly := live_own I (ownr y (by simp))
  have lp := live_own I h2
  have ln := live_node I hn
  have heval : linkAfter n pos h = some ⟨h.live, upd (upd h.next n (some y)) pos (some n),
      upd (upd h.prev n (some pos)) y (some n), h.sent⟩ := by
    simp [linkAfter, require, setPrev, setNext, deref, e1, ly, lp, ln, upd, ny, np]
  rw [h4]
  refine ⟨_, _, heval, inv_seam [] [] I h1 h3 h5 rfl rfl ?_ (by simp) ?_ ?_ ?_ ?_⟩
  · intro a ha; simp at ha; subst ha; exact ⟨hn, Or.inl on⟩
  · intro a c1 c2 c3; simp at c3; simp [upd, c1, c3]
  · intro a c1 c2 c3; simp at c3; simp [upd, c1, c3]
  · simp [Link, upd, ny, np]
  · intro a c1 c2 c3
    simp at c2 c3
    have hf := I.free a c3.2 c3.1 (by simp)
    have ay : a ≠ y := by rintro rfl; rw [ownr a (by simp)] at c3; simp at c3
    have ap : a ≠ pos := by rintro rfl; rw [ownr a (by simp)] at c3; simp at c3
    simp [upd, ay, ap, c2, hf]

theorem insertBefore_ok (I : Inv h T own []) {n pos : Nat} (hn : T.nodes n = true) (hp : T.Pos pos) (hne : n ≠ pos) :
    ∃ h' own', insertBefore h n pos = some h' ∧ Inv h' (Spec.putBefore [n] pos (Spec.remove n T)) own' [] := by
  obtain ⟨s, xs, _, hop, _⟩ := own_pos I hp
  obtain ⟨h1, own1, e1, I1, f1⟩ := detach_ok I hn
  obtain ⟨h2, own2, e2, I2⟩ := linkBefore_ok I1 (n := n) (pos := pos) hn f1 (pos_remove hp hne)
  refine ⟨h2, own2, ?_, I2⟩
  simp [insertBefore, require, live_node I hn, sent_node I hn, live_own I hop, isInAList_pos I hp, e1, e2]

theorem insertAfter_ok (I : Inv h T own []) {n pos : Nat} (hn : T.nodes n = true) (hp : T.Pos pos) (hne : n ≠ pos) :
    ∃ h' own', insertAfter h n pos = some h' ∧ Inv h' (Spec.putAfter [n] pos (Spec.remove n T)) own' [] := by
  obtain ⟨s, xs, _, hop, _⟩ := own_pos I hp
  obtain ⟨h1, own1, e1, I1, f1⟩ := detach_ok I hn
  obtain ⟨h2, own2, e2, I2⟩ := linkAfter_ok I1 (n := n) (pos := pos) hn f1 (pos_remove hp hne)
  refine ⟨h2, own2, ?_, I2⟩
  simp [insertAfter, require, live_node I hn, sent_node I hn, live_own I hop, isInAList_pos I hp, hne, e1, e2]

theorem exchange_ok (I : Inv h T own []) {a b : Nat} (ha : T.nodes a = true) (hfree : ¬ T.InList a) (hb : T.InList b) :
    ∃ h' own', replaceWith h b a = some h' ∧ Inv h' (Spec.exchange b a T) own' [] := by
  obtain ⟨s, xs, A, x, y, B, h1, h2, h3, _, h4⟩ := split_mem I hb
  obtain ⟨xs', h4, h5⟩ := h4 a
  have hl := I.link s xs h1
  have hnode : T.nodes b = true := by obtain ⟨s, xs, a, b⟩ := hb; exact I.node _ _ _ a b
  have ownr : ∀ a ∈ A ++ x :: ([b] ++ y :: B), own a = some s := fun a ha => (I.memb s xs h1 a).1 (mem_ring h3 a ha)
  have on := (own_none I ha).2 hfree
  rw [h3] at hl
  have e1 := link_at hl
  have e2 : h.next b = some y ∧ h.prev y = some b := by
    apply link_at (A := A ++ [x]) (B := B); simpa using hl
  obtain ⟨_, _, f3, f4⟩ := seam_facts (I.nodup s xs h1) h3
  have bx : b ≠ x := by
    rw [List.nodup_append] at f3; simp only [List.nodup_cons, List.mem_append, List.mem_cons] at f3; grind
  have bY : b ≠ y := by
    rw [List.nodup_append] at f4
    simp only [List.singleton_append, List.nodup_cons, List.mem_append, List.mem_cons] at f4; grind
  have ax : a ≠ x := by rintro rfl; rw [ownr a (by simp)] at on; simp at on
  have ay : a ≠ y := by rintro rfl; rw [ownr a (by simp)] at on; simp at on
  have ab : a ≠ b := by rintro rfl; rw [h2] at on; simp at on
  have lx := live_own I (ownr x (by simp))
  have ly := live_own I (ownr y (by simp))
  have lb := live_own I h2
  have la := live_node I ha
  have heval : replaceWith h b a = some ⟨h.live, upd (upd (upd h.next a (some y)) x (some a)) b none,
      upd (upd (upd h.prev a (some x)) y (some a)) b none, h.sent⟩ := by
    simp [replaceWith, replaceAsserts, isEmptyList, takePlace, resetSelf, require, isInAList, setPrev, setNext, deref, e1, e2,
      lx, ly, lb, la, sent_node I hnode, sent_node I ha, upd, bx, bY, ax, ay, ab, Ne.symm bx, Ne.symm bY, Ne.symm ab]
  rw [h4]
  refine ⟨_, _, heval, inv_seam [] [] I h1 h3 h5 rfl rfl ?_ (by simp) ?_ ?_ ?_ ?_⟩
  · intro c hc; simp at hc; subst hc; exact ⟨ha, Or.inl on⟩
  · intro c c1 c2 c3; simp at c2 c3; simp [upd, c1, c2, c3]
  · intro c c1 c2 c3; simp at c2 c3; simp [upd, c1, c2, c3]
  · simp [Link, upd, Ne.symm bx, Ne.symm bY, ab, ax, ay]
  · intro c c1 c2 c3
    simp at c2
    rcases c3 with c3 | c3
    · simp at c3; simp [upd, c3]
    · have hf := I.free c c3.2 c3.1 (by simp)
      have cx : c ≠ x := by rintro rfl; rw [ownr c (by simp)] at c3; simp at c3
      have cy : c ≠ y := by rintro rfl; rw [ownr c (by simp)] at c3; simp at c3
      simp [upd, cx, cy, c2, hf]

end Verif.IList
