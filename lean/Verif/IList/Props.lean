import Verif.IList.Moves
set_option linter.unusedSimpArgs false
set_option linter.unusedVariables false

/-!
# C19: intrusive lists behave as lists

For every history of operations whose callers respect the documented requirements
(`Spec.Valid`), no operation dereferences a null or dead pointer or fails an assertion, and
what the API shows afterwards is what replaying the history on plain lists gives.
-/
namespace Verif.IList
open Spec

/-- The operations on the heap. -/
def step (h : Heap) : Op → Option Heap
  | .newNode a => newNode h a
  | .newList a => newList h a
  | .deleteNode a => deleteNode h a
  | .deleteList l => deleteList h l
  | .insertBefore n pos => insertBefore h n pos
  | .insertAfter n pos => insertAfter h n pos
  | .remove n => removeFromList h n
  | .pushBack l n => pushBack h l n
  | .clear l => clear l h
  | .copyAssignNode a _ => copyAssignNode h a
  | .moveAssignNode a b => moveAssignNode h a b
  | .newNodeMove a b => newNodeMove h a b
  | .moveAssignList l m => moveAssignList h l m
  | .newListMove l m => newListMove h l m
  | .moveBefore pos l => (moveBefore h pos l).map Prod.fst
  | .splice l w o f e => splice h l w o f e

def run : Heap → List Op → Option Heap
  | h, [] => some h
  | h, o :: ops => (step h o).bind (fun h' => run h' ops)

theorem step_ok {h : Heap} {T : State} {own : Nat → Option Nat} (I : Inv h T own []) (o : Op) (hp : Pre T o) :
    ∃ h' own', step h o = some h' ∧ Inv h' (Spec.apply T o) own' [] := by
  cases o with
  | newNode a => exact newNode_ok I hp
  | newList a => exact newList_ok I hp
  | deleteNode a => exact deleteNode_ok I hp.1 hp.2
  | deleteList l => exact deleteList_ok I hp
  | insertBefore n pos => exact insertBefore_ok I hp.1 hp.2.1 hp.2.2
  | insertAfter n pos => exact insertAfter_ok I hp.1 hp.2.1 hp.2.2
  | remove n => exact remove_ok I hp
  | pushBack l n =>
    refine insertBefore_ok I hp.1 (Or.inl hp.2) ?_
    rintro rfl
    have := hp.2; rw [I.excl n hp.1] at this; simp at this
  | clear l =>
    obtain ⟨xs, hx⟩ := Option.isSome_iff_exists.1 (show (T.lists l).isSome = true from hp)
    exact clear_ok xs h T own I hx
  | copyAssignNode a b =>
    obtain ⟨h', own', h1, h2, _⟩ := detach_ok I hp.1
    exact ⟨h', own', by simp [step, copyAssignNode, require, live_node I hp.1, sent_node I hp.1, h1], h2⟩
  | moveAssignNode a b => exact exchange_ok I hp.1 hp.2.1 hp.2.2
  | newNodeMove a b =>
    obtain ⟨hf, hb⟩ := hp
    obtain ⟨h1, own1, e1, I1⟩ := newNode_ok I hf
    have hbn : T.nodes b = true := by obtain ⟨s, xs, h1, h2⟩ := hb; exact I.node s xs b h1 h2
    have hna : ¬ ({ T with nodes := upd T.nodes a true } : State).InList a := by
      rintro ⟨s, xs, h1, h2⟩
      have := I.node s xs a h1 h2
      rw [hf.2] at this; simp at this
    obtain ⟨h2, own2, e2, I2⟩ := exchange_ok I1 (a := a) (b := b) (by simp [upd]) hna hb
    exact ⟨h2, own2, by simp [step, newNodeMove, require, live_node I hbn, sent_node I hbn, e1, e2], I2⟩
  | moveAssignList l m => exact moveAssignList_ok I hp.1 hp.2
  | newListMove l m =>
    obtain ⟨hf, hm⟩ := hp
    obtain ⟨h1, own1, e1, I1⟩ := newList_ok I hf
    have hne : m ≠ l := by rintro rfl; rw [hf.1] at hm; simp at hm
    obtain ⟨h2, own2, e2, I2⟩ := moveAssignList_ok I1 (l := l) (m := m) (by simp [upd]) (by simp [upd, hne, hm])
    refine ⟨h2, own2, by simp [step, newListMove, e1, e2], ?_⟩
    have : upd (upd (upd T.lists l (some [])) m (some [])) l (upd T.lists l (some []) m) =
        upd (upd T.lists m (some [])) l (T.lists m) := by
      funext b; simp only [upd, hne, if_false]; grind
    rw [this] at I2
    exact I2
  | moveBefore pos l =>
    obtain ⟨h0, ys, h1, h2, h3⟩ := hp
    obtain ⟨h', own', r, e1, e2, I'⟩ := moveBefore_ok I h0 h1 h2 h3
    refine ⟨h', own', by simp [step, e1], ?_⟩
    simp only [Spec.apply, h1, Option.getD_some]
    exact I'
  | splice l w o f e =>
    by_cases c1 : f = e
    · exact ⟨h, own, by simp [step, splice, c1], by simp [Spec.apply, c1]; exact I⟩
    · by_cases c2 : o = l
      · exact ⟨h, own, by simp [step, splice, c2], by simp [Spec.apply, c2]; exact I⟩
      · rcases hp with hp | hp | ⟨xs, ys, a, seg, b, h1, h2, h3, h4, h5⟩
        · exact absurd hp c1
        · exact absurd hp c2
        · exact splice_ok I c1 c2 h1 h2 h3 h4 h5

theorem inv_empty : Inv Heap.empty State.empty (fun _ => none) [] := by
  constructor <;> simp [Heap.empty, State.empty]

theorem run_inv : ∀ (ops : List Op) (h : Heap) (T : State) (own : Nat → Option Nat), Inv h T own [] → Valid T ops →
    ∃ h' own', run h ops = some h' ∧ Inv h' (ops.foldl Spec.apply T) own' []
  | [], h, T, own, I, _ => ⟨h, own, rfl, I⟩
  | o :: ops, h, T, own, I, hv => by
    obtain ⟨h1, own1, e1, I1⟩ := step_ok I o hv.1
    obtain ⟨h2, own2, e2, I2⟩ := run_inv ops h1 _ own1 I1 hv.2
    exact ⟨h2, own2, by simp [run, e1, e2], I2⟩

/-- The element after `a` in a list, and the one before it. -/
def Spec.after (a : Nat) (xs : List Nat) : Option Nat := (xs.drop (xs.idxOf a + 1)).head?
def Spec.before (a : Nat) (xs : List Nat) : Option Nat := (xs.take (xs.idxOf a)).getLast?

/-- C19. -/
theorem intrusiveList_refines (ops : List Op) (hv : Valid State.empty ops) :
    ∃ h, run Heap.empty ops = some h ∧
      let T := ops.foldl Spec.apply State.empty
      (∀ l xs, T.lists l = some xs →
        forward h l = some xs ∧ backward h l = some xs.reverse ∧ isEmpty h l = some xs.isEmpty ∧
        front h l = xs.head? ∧ back h l = xs.getLast? ∧ xs.Nodup ∧
        ∀ a ∈ xs, nextNode h a = some (Spec.after a xs) ∧ previousNode h a = some (Spec.before a xs)) ∧
      (∀ a, T.nodes a = true → (isInAList h a = true ↔ T.InList a)) ∧
      (∀ a l l' xs xs', T.lists l = some xs → T.lists l' = some xs' → a ∈ xs → a ∈ xs' → l = l') := by
  obtain ⟨h, own, h1, I⟩ := run_inv ops _ _ _ inv_empty hv
  refine ⟨h, h1, ?_, ?_, ?_⟩
  · intro l xs hx
    refine ⟨(forward_ok I hx).1, (forward_ok I hx).2, isEmpty_ok I hx, front_ok I hx, back_ok I hx,
      (List.nodup_cons.1 (I.nodup l xs hx)).2, ?_⟩
    intro a ha
    obtain ⟨u, v, hu, huv⟩ := List.eq_append_cons_of_mem ha
    have hidx : xs.idxOf a = u.length := by
      rw [hu]; simp [List.idxOf_append, huv]
    constructor
    · rw [next_ring I hx (u := l :: u) (v := v) (a := a) (by rw [hu]; simp)]
      unfold Spec.after
      rw [hidx, hu]
      simp
    · rw [prev_ring I hx (u := u) (v := v ++ [l]) (a := a) (by rw [hu]; simp)]
      unfold Spec.before
      rw [hidx, hu]
      simp
  · intro a ha; exact isInAList_iff I ha
  · intro a l l' xs xs' h1 h2 h3 h4
    have e1 := (I.memb l xs h1 a).1 (by simp [h3])
    have e2 := (I.memb l' xs' h2 a).1 (by simp [h4])
    rw [e1] at e2; simpa using e2

/-- C19, for the iterator returned by `MoveBefore`: the first moved node, or the position when
nothing was moved. -/
theorem moveBefore_result (ops : List Op) (pos l : Nat) (ys : List Nat) (hv : Valid State.empty ops)
    (hp : (ops.foldl Spec.apply State.empty).Pos pos) (hl : (ops.foldl Spec.apply State.empty).lists l = some ys)
    (h1 : pos ≠ l) (h2 : pos ∉ ys) :
    ∃ h h', run Heap.empty ops = some h ∧ moveBefore h pos l = some (h', some (ys.head?.getD pos)) := by
  obtain ⟨h, own, e1, I⟩ := run_inv ops _ _ _ inv_empty hv
  obtain ⟨h', own', r, e2, e3, _⟩ := moveBefore_ok I hp hl h1 h2
  exact ⟨h, h', e1, by rw [e2, e3]⟩

/-! ### Outside the requirements -/

/-- `NextNode` and `PreviousNode` of a node that is in no list dereference a null pointer,
although the header says they return null. -/
theorem nextNode_not_in_list {h : Heap} {T : State} {own : Nat → Option Nat} (I : Inv h T own []) (a : Nat)
    (ha : T.nodes a = true) (hf : ¬ T.InList a) : nextNode h a = none ∧ previousNode h a = none := by
  have := I.free a ha ((own_none I ha).2 hf) (by simp)
  simp [nextNode, previousNode, require, live_node I ha, this, deref]

/-- `n->InsertBefore(n)` is not rejected: the node leaves its list and becomes a ring of its own
without a sentinel (it claims to be in a list). -/
theorem insertBefore_self {h : Heap} {T : State} {own : Nat → Option Nat} (I : Inv h T own []) (n : Nat)
    (hn : T.InList n) : ∃ h', insertBefore h n n = some h' ∧ h'.next n = some n ∧ h'.prev n = some n ∧
      isInAList h' n = true ∧ h'.sent n = false := by
  obtain ⟨h1, own1, e1, I1⟩ := remove_ok I hn
  have hnode : T.nodes n = true := by obtain ⟨s, xs, a, b⟩ := hn; exact I.node s xs n a b
  have hl1 := live_node I1 (a := n) hnode
  have hno : ¬ (Spec.remove n T).InList n := by
    rintro ⟨l, xs, h1, h2⟩
    simp only [Spec.remove, Option.map_eq_some_iff] at h1
    obtain ⟨ys, h3, rfl⟩ := h1
    simp [without] at h2
  have hfr := I1.free n hnode ((own_none I1 (a := n) hnode).2 hno) (by simp)
  have hin := (isInAList_iff I hnode).2 hn
  refine ⟨⟨h1.live, upd (upd h1.next n (some n)) n (some n), upd (upd h1.prev n (h1.prev n)) n (some n), h1.sent⟩,
    ?_, ?_, ?_, ?_, ?_⟩
  · simp [insertBefore, require, live_node I hnode, sent_node I hnode, hin, detach, e1, linkBefore, setNext, setPrev, deref,
      hl1, upd]
  · simp [upd]
  · simp [upd]
  · simp [isInAList, upd]
  · simp [sent_node I1 (a := n) hnode]

/-- Move-assigning a node to itself leaves its neighbours pointing at it while it claims to be
in no list. -/
theorem moveAssignNode_self {h : Heap} {T : State} {own : Nat → Option Nat} (I : Inv h T own []) (n : Nat)
    (hn : T.InList n) : ∃ h' x, moveAssignNode h n n = some h' ∧ isInAList h' n = false ∧ h'.next x = some n := by
  obtain ⟨s, xs, A, x, y, B, h1, h2, h3, _, _⟩ := split_mem I hn
  have hl := I.link s xs h1
  have hnode : T.nodes n = true := by obtain ⟨s, xs, a, b⟩ := hn; exact I.node s xs n a b
  have ownr : ∀ a ∈ A ++ x :: ([n] ++ y :: B), own a = some s := fun a ha => (I.memb s xs h1 a).1 (mem_ring h3 a ha)
  rw [h3] at hl
  have e1 := link_at hl
  have e2 : h.next n = some y ∧ h.prev y = some n := by
    apply link_at (A := A ++ [x]) (B := B); simpa using hl
  obtain ⟨_, _, f3, f4⟩ := seam_facts (I.nodup s xs h1) h3
  have nx : n ≠ x := by
    rw [List.nodup_append] at f3; simp only [List.nodup_cons, List.mem_append, List.mem_cons] at f3; grind
  have ny : n ≠ y := by
    rw [List.nodup_append] at f4
    simp only [List.singleton_append, List.nodup_cons, List.mem_append, List.mem_cons] at f4; grind
  have lx := live_own I (ownr x (by simp))
  have ly := live_own I (ownr y (by simp))
  have ln := live_own I h2
  refine ⟨⟨h.live, upd (upd (upd h.next n (some y)) x (some n)) n none, upd (upd (upd h.prev n (some x)) y (some n)) n none, h.sent⟩,
    x, ?_, ?_, ?_⟩
  · simp [moveAssignNode, replaceWith, replaceAsserts, isEmptyList, takePlace, resetSelf, require, isInAList, setPrev, setNext, deref,
      e1, e2, lx, ly, ln, sent_node I hnode, upd, nx, ny, Ne.symm nx, Ne.symm ny]
  · simp [isInAList, upd]
  · simp [upd, Ne.symm nx]

/-! ### A concrete history -/
namespace Example

/-- Lists 100 and 200, nodes 1 to 5. -/
def ops : List Op :=
  [.newList 100, .newList 200, .newNode 1, .newNode 2, .newNode 3, .newNode 4, .newNode 5, .newNode 6,
   .pushBack 100 1, .pushBack 100 2, .insertBefore 3 2, .insertAfter 4 100, .pushBack 200 5,
   .splice 200 5 100 1 2, .remove 4, .moveBefore 5 100, .moveAssignNode 6 1, .newListMove 300 200,
   .clear 100, .deleteList 100]

example : (ops.foldl Spec.apply State.empty).lists 300 = some [2, 5, 6, 3] := by decide
example : (ops.foldl Spec.apply State.empty).lists 200 = some [] := by decide

theorem valid : Valid State.empty ops := by
  refine ⟨⟨rfl, rfl⟩, ⟨rfl, rfl⟩, ⟨rfl, rfl⟩, ⟨rfl, rfl⟩, ⟨rfl, rfl⟩, ⟨rfl, rfl⟩, ⟨rfl, rfl⟩, ⟨rfl, rfl⟩,
    ⟨rfl, rfl⟩, ⟨rfl, rfl⟩, ⟨rfl, Or.inr ⟨100, [1, 2], rfl, by decide⟩, by decide⟩, ⟨rfl, Or.inl rfl, by decide⟩,
    ⟨rfl, rfl⟩, Or.inr (Or.inr ⟨[5], [4, 1, 3, 2], [4], [3], [2], rfl, rfl, Or.inr (by decide), rfl, rfl⟩),
    ⟨100, [4, 2], rfl, by decide⟩, ⟨Or.inr ⟨200, [5, 1, 3], rfl, by decide⟩, [2], rfl, by decide, by decide⟩,
    ⟨rfl, ?_, ⟨200, [2, 5, 1, 3], rfl, by decide⟩⟩, ⟨⟨rfl, rfl⟩, rfl⟩, rfl, rfl, trivial⟩
  rintro ⟨l, xs, h1, h2⟩
  by_cases e1 : l = 100
  · subst e1
    have : some [] = some xs := h1
    simp at this; subst this; simp at h2
  · by_cases e2 : l = 200
    · subst e2
      have : some [2, 5, 1, 3] = some xs := h1
      simp at this; subst this; simp at h2
    · simp [Spec.apply, Spec.putBefore, Spec.putAfter, Spec.remove, State.empty, upd, e1, e2] at h1

/-- The history meets the hypotheses of `intrusiveList_refines`. -/
example : ∃ h, run Heap.empty ops = some h ∧ forward h 300 = some [2, 5, 6, 3] := by
  obtain ⟨h, h1, h2, _⟩ := intrusiveList_refines ops valid
  exact ⟨h, h1, (h2 300 [2, 5, 6, 3] (by decide)).1⟩

end Example

end Verif.IList
