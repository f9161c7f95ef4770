import Verif.SmallVector.Lemmas
set_option linter.unusedSimpArgs false
set_option linter.unusedVariables false

/-!
# C18: SmallVector behaves as a sequence

A program holds any number of vectors (registers), all of the same inline capacity, and
performs any history of operations on them.  The specification replays the history on plain
sequences.
-/
namespace Verif.SmallVector
variable {α : Type}

/-- The public operations. -/
inductive Op (α : Type) where
  | newEmpty (r : Nat)
  | newVector (r : Nat) (vs : List α)
  | newInit (r : Nat) (vs : List α)
  | newRange (r : Nat) (vs : List α)
  | newFill (r : Nat) (n : Nat) (v : α)
  | newCopy (r s : Nat)
  | newMove (r s : Nat)
  | copyAssign (r s : Nat)
  | moveAssign (r s : Nat)
  | push (r : Nat) (v : α)
  | pop (r : Nat)
  | set (r i : Nat) (v : α)
  | insert (r i : Nat) (vs : List α)
  | erase (r first last : Nat)
  | resize (r n : Nat) (v : α)
  | clear (r : Nat)

/-- Replacing the contents of one register. -/
def upd {β : Type} (f : Nat → β) (r : Nat) (b : β) : Nat → β := fun i => if i = r then b else f i

namespace Spec

/-- What each operation does to plain sequences; `none` when the caller violates the
requirement of the operation (an index out of range, `pop` of an empty vector, moving an
object to itself). -/
def step (S : Nat → List α) : Op α → Option (Nat → List α)
  | .newEmpty r => some (upd S r [])
  | .newVector r vs => some (upd S r vs)
  | .newInit r vs => some (upd S r vs)
  | .newRange r vs => some (upd S r vs)
  | .newFill r n v => some (upd S r (List.replicate n v))
  | .newCopy r s => if r = s then none else some (upd S r (S s))
  | .newMove r s => if r = s then none else some (upd (upd S r (S s)) s [])
  | .copyAssign r s => some (upd S r (S s))
  | .moveAssign r s => if r = s then none else some (upd (upd S r (S s)) s [])
  | .push r v => some (upd S r (S r ++ [v]))
  | .pop r => if S r = [] then none else some (upd S r (S r).dropLast)
  | .set r i v => if i < (S r).length then some (upd S r ((S r).set i v)) else none
  | .insert r i vs => if i ≤ (S r).length then some (upd S r ((S r).take i ++ vs ++ (S r).drop i)) else none
  | .erase r a b => if a ≤ b ∧ b ≤ (S r).length then some (upd S r ((S r).take a ++ (S r).drop b)) else none
  | .resize r n v => some (upd S r ((S r).take n ++ List.replicate (n - (S r).length) v))
  | .clear r => some (upd S r [])

def run : (Nat → List α) → List (Op α) → Option (Nat → List α)
  | S, [] => some S
  | S, o :: ops => (step S o).bind (fun S' => run S' ops)

end Spec

variable [DecidableEq α]

/-- Replacing the object in a register: the old object is destroyed. -/
def replace (st : Nat → SV α) (r : Nat) (s : Option (SV α)) : Option (Nat → SV α) :=
  (destruct (st r)).bind (fun _ => s.bind (fun s => some (upd st r s)))

def replace2 (st : Nat → SV α) (r s : Nat) (p : Option (SV α × SV α)) : Option (Nat → SV α) :=
  (destruct (st r)).bind (fun _ => p.bind (fun p => some (upd (upd st r p.1) s p.2)))

def put (st : Nat → SV α) (r : Nat) (s : Option (SV α)) : Option (Nat → SV α) :=
  s.bind (fun s => some (upd st r s))

/-- The operations on the model; `none` = undefined behaviour. -/
def step (el : Elem α) (cap : Nat) (st : Nat → SV α) : Op α → Option (Nat → SV α)
  | .newEmpty r => replace st r (some (create cap))
  | .newVector r vs => replace st r (fromVector cap vs)
  | .newInit r vs => replace st r (fromInit cap vs)
  | .newRange r vs => replace st r (newRange el cap vs)
  | .newFill r n v => replace st r (newFill el cap n v)
  | .newCopy r s => replace st r (newCopy cap (st s))
  | .newMove r s => replace2 st r s (newMove el cap (st s))
  | .copyAssign r s => put st r (copyAssign (st r) (st s))
  | .moveAssign r s => (moveAssign el (st r) (st s)).bind (fun p => some (upd (upd st r p.1) s p.2))
  | .push r v => put st r (push el (st r) v)
  | .pop r => put st r (pop (st r))
  | .set r i v => put st r ((st r).setAt i v)
  | .insert r i vs => put st r (insert el (st r) i vs)
  | .erase r a b => put st r (erase el (st r) a b)
  | .resize r n v => put st r (resize el (st r) n v)
  | .clear r => put st r (clear (st r))

def run (el : Elem α) (cap : Nat) : (Nat → SV α) → List (Op α) → Option (Nat → SV α)
  | st, [] => some st
  | st, o :: ops => (step el cap st o).bind (fun st' => run el cap st' ops)

/-- Every register represents its sequence. -/
def Match (cap : Nat) (st : Nat → SV α) (S : Nat → List α) : Prop :=
  ∀ r, Good (st r) (S r) ∧ (st r).cap = cap

theorem match_upd {cap : Nat} {st : Nat → SV α} {S : Nat → List α} (h : Match cap st S) (r : Nat)
    (s : SV α) (xs : List α) (hs : Good s xs) (hc : s.cap = cap) : Match cap (upd st r s) (upd S r xs) := by
  intro i
  unfold upd
  split
  · exact ⟨hs, hc⟩
  · exact h i

theorem destruct_ok (s : SV α) (xs : List α) (h : Good s xs) : destruct s = some () := by
  obtain ⟨b', h1, _⟩ := destroyLoop_spec s.size 0 s.buf (fun j _ hj => h.sz.2.1 j (by omega))
  simp [destruct, h1]

theorem good_create (cap : Nat) : Good (create cap : SV α) [] := good_inline _ _ _ (rep_replicate cap) rfl
theorem cap_create (cap : Nat) : (create cap : SV α).cap = cap := by simp [create, SV.cap]

theorem replace_ok {cap : Nat} {st : Nat → SV α} {S : Nat → List α} (h : Match cap st S) (r : Nat)
    (os : Option (SV α)) (xs : List α) (hs : ∃ s, os = some s ∧ Good s xs ∧ s.cap = cap) :
    ∃ st', replace st r os = some st' ∧ Match cap st' (upd S r xs) := by
  obtain ⟨s, rfl, h1, h2⟩ := hs
  exact ⟨_, by simp [replace, destruct_ok _ _ (h r).1], match_upd h r s xs h1 h2⟩

theorem put_ok {cap : Nat} {st : Nat → SV α} {S : Nat → List α} (h : Match cap st S) (r : Nat)
    (os : Option (SV α)) (xs : List α) (hs : ∃ s, os = some s ∧ Good s xs ∧ s.cap = (st r).cap) :
    ∃ st', put st r os = some st' ∧ Match cap st' (upd S r xs) := by
  obtain ⟨s, rfl, h1, h2⟩ := hs
  exact ⟨_, rfl, match_upd h r s xs h1 (by rw [h2, (h r).2])⟩

theorem step_refines (el : Elem α) (hself : ∀ v, el.selfMove v = v) (cap : Nat) (st : Nat → SV α)
    (S S' : Nat → List α) (o : Op α) (h : Match cap st S) (hs : Spec.step S o = some S') :
    ∃ st', step el cap st o = some st' ∧ Match cap st' S' := by
  cases o with
  | newEmpty r =>
    simp only [Spec.step, Option.some.injEq] at hs; subst hs
    exact replace_ok h r _ _ ⟨_, rfl, good_create cap, cap_create cap⟩
  | newVector r vs =>
    simp only [Spec.step, Option.some.injEq] at hs; subst hs
    exact replace_ok h r _ _ (fromList_spec cap (cap + 1) (Nat.le_refl _) vs)
  | newInit r vs =>
    simp only [Spec.step, Option.some.injEq] at hs; subst hs
    exact replace_ok h r _ _ (fromList_spec cap cap (by omega) vs)
  | newRange r vs =>
    simp only [Spec.step, Option.some.injEq] at hs; subst hs
    obtain ⟨s, h1, h2, h3⟩ := insert_spec el (create cap) [] vs 0 (good_create cap) (by simp) (fun _ => hself)
    exact replace_ok h r _ _ ⟨s, h1, by simpa using h2, by rw [h3, cap_create]⟩
  | newFill r n v =>
    simp only [Spec.step, Option.some.injEq] at hs; subst hs
    obtain ⟨s, h1, h2, h3⟩ := resize_spec el (create cap) [] n v (good_create cap)
    exact replace_ok h r _ _ ⟨s, h1, by simpa using h2, by rw [h3, cap_create]⟩
  | newCopy r s =>
    simp only [Spec.step] at hs
    split at hs
    · simp at hs
    · simp only [Option.some.injEq] at hs; subst hs
      obtain ⟨s', h1, h2, h3⟩ := copyAssign_spec (create cap) (st s) [] (S s) (good_create cap) (h s).1
        (by rw [cap_create, (h s).2])
      exact replace_ok h r _ _ ⟨s', h1, h2, by rw [h3, cap_create]⟩
  | newMove r s =>
    simp only [Spec.step] at hs
    split at hs
    · simp at hs
    · simp only [Option.some.injEq] at hs; subst hs
      obtain ⟨a, t, h1, h2, h3, h4, h5⟩ := moveAssign_spec el (create cap) (st s) [] (S s) (good_create cap)
        (h s).1 (by rw [cap_create, (h s).2])
      refine ⟨_, ?_, match_upd (match_upd h r a _ h2 (by rw [h4, cap_create])) s t [] h3 (by rw [h5, (h s).2])⟩
      simp [step, replace2, destruct_ok _ _ (h r).1, newMove, h1]
  | copyAssign r s =>
    simp only [Spec.step, Option.some.injEq] at hs; subst hs
    exact put_ok h r _ _ (copyAssign_spec _ _ _ _ (h r).1 (h s).1 (by rw [(h r).2, (h s).2]))
  | moveAssign r s =>
    simp only [Spec.step] at hs
    split at hs
    · simp at hs
    · simp only [Option.some.injEq] at hs; subst hs
      obtain ⟨a, t, h1, h2, h3, h4, h5⟩ := moveAssign_spec el (st r) (st s) _ _ (h r).1 (h s).1
        (by rw [(h r).2, (h s).2])
      refine ⟨_, ?_, match_upd (match_upd h r a _ h2 (by rw [h4, (h r).2])) s t [] h3 (by rw [h5, (h s).2])⟩
      simp [step, h1]
  | push r v =>
    simp only [Spec.step, Option.some.injEq] at hs; subst hs
    exact put_ok h r _ _ (push_spec el _ _ v (h r).1)
  | pop r =>
    simp only [Spec.step] at hs
    split at hs
    · simp at hs
    · rename_i hne
      simp only [Option.some.injEq] at hs; subst hs
      exact put_ok h r _ _ (pop_spec _ _ (h r).1 hne)
  | set r i v =>
    simp only [Spec.step] at hs
    split at hs
    · rename_i hi
      simp only [Option.some.injEq] at hs; subst hs
      exact put_ok h r _ _ (setAt_spec _ _ (h r).1 i v hi)
    · simp at hs
  | insert r i vs =>
    simp only [Spec.step] at hs
    split at hs
    · rename_i hi
      simp only [Option.some.injEq] at hs; subst hs
      exact put_ok h r _ _ (insert_spec el _ _ vs i (h r).1 hi (fun _ => hself))
    · simp at hs
  | erase r a b =>
    simp only [Spec.step] at hs
    split at hs
    · rename_i hi
      simp only [Option.some.injEq] at hs; subst hs
      exact put_ok h r _ _ (erase_spec el _ _ a b (h r).1 hi.1 hi.2)
    · simp at hs
  | resize r n v =>
    simp only [Spec.step, Option.some.injEq] at hs; subst hs
    exact put_ok h r _ _ (resize_spec el _ _ n v (h r).1)
  | clear r =>
    simp only [Spec.step, Option.some.injEq] at hs; subst hs
    exact put_ok h r _ _ (clear_spec _ _ (h r).1)

theorem eqLoop_iff (eq : α → α → Bool) : ∀ (l r : List α), l.length = r.length →
    (eqLoop eq l r = true ↔ ∀ i (h : i < l.length) (h' : i < r.length), eq l[i] r[i] = true)
  | [], r, h => by cases r <;> simp [eqLoop] at *
  | a :: l, [], h => by simp at h
  | a :: l, b :: r, h => by
    simp only [eqLoop]
    have ih := eqLoop_iff eq l r (by simpa using h)
    split
    · rename_i hab
      rw [ih]
      constructor
      · intro hh i h1 h2
        cases i with
        | zero => exact hab
        | succ i => exact hh i (by simpa using h1) (by simpa using h2)
      · intro hh i h1 h2; exact hh (i + 1) (by simpa using h1) (by simpa using h2)
    · rename_i hab
      simp only [Bool.false_eq_true, false_iff]
      intro hh; exact hab (hh 0 (by simp) (by simp))

theorem mapM_at (s : SV α) (xs : List α) (h : Good s xs) : (List.range s.len).mapM s.at = some xs := by
  rw [len_spec s xs h]
  have : ∀ k, k ≤ xs.length → (List.range k).mapM s.at = some (xs.take k) := by
    intro k
    induction k with
    | zero => intro _; simp
    | succ k ih =>
      intro hk
      rw [List.range_succ, List.mapM_append, ih (by omega)]
      simp only [List.mapM_cons, List.mapM_nil, at_spec s xs h, List.getElem?_eq_getElem (show k < xs.length by omega),
        Option.pure_def, Option.bind_eq_bind, Option.bind_some, List.take_add_one]
      simp
  simpa using this xs.length (Nat.le_refl _)

/-- C18: after any history that respects the operations' requirements, started from
default-constructed vectors of any inline capacity, no step had undefined behaviour (every
access was inside the buffer and to a live object, nothing was constructed twice or destroyed
twice), and every vector's size, elements, emptiness and equality are those of the plain
sequence.  The element type's self-move assignment must keep its value (it does for
integers and pointers, the only types used; see `insert_empty_range`). -/
theorem smallVector_refines (el : Elem α) (hself : ∀ v, el.selfMove v = v) (cap : Nat)
    (ops : List (Op α)) (S : Nat → List α) (hS : Spec.run (fun _ => []) ops = some S) :
    ∃ st, run el cap (fun _ => create cap) ops = some st ∧
      ∀ r, (st r).len = (S r).length ∧ (∀ i, (st r).at i = (S r)[i]?) ∧ (st r).isEmpty = (S r).isEmpty ∧
        (∀ rhs, svEq (fun a b => decide (a = b)) (st r) rhs = some (decide (S r = rhs))) ∧
        destruct (st r) = some () := by
  have key : ∀ (ops : List (Op α)) (st : Nat → SV α) (S0 S : Nat → List α), Match cap st S0 →
      Spec.run S0 ops = some S → ∃ st', run el cap st ops = some st' ∧ Match cap st' S := by
    intro ops
    induction ops with
    | nil => intro st S0 S h hS; simp [Spec.run] at hS; subst hS; exact ⟨st, rfl, h⟩
    | cons o ops ih =>
      intro st S0 S h hS
      simp only [Spec.run] at hS
      cases h1 : Spec.step S0 o with
      | none => rw [h1] at hS; simp at hS
      | some S1 =>
        rw [h1] at hS
        obtain ⟨st1, h2, h3⟩ := step_refines el hself cap st S0 S1 o h h1
        obtain ⟨st2, h4, h5⟩ := ih st1 S1 S h3 hS
        exact ⟨st2, by simp [run, h2, h4], h5⟩
  obtain ⟨st, h1, h2⟩ := key ops (fun _ => create cap) (fun _ => []) S
    (fun r => ⟨good_create cap, cap_create cap⟩) hS
  refine ⟨st, h1, fun r => ⟨len_spec _ _ (h2 r).1, at_spec _ _ (h2 r).1, isEmpty_spec _ _ (h2 r).1, fun rhs => ?_,
    destruct_ok _ _ (h2 r).1⟩⟩
  unfold svEq
  have hl := len_spec _ _ (h2 r).1
  rw [mapM_at _ _ (h2 r).1, hl]
  by_cases hlen : (S r).length = rhs.length
  · rw [if_neg (by simpa using hlen)]
    simp only [Option.bind_eq_bind, Option.bind_some, Option.some.injEq]
    rw [Bool.eq_iff_iff, eqLoop_iff _ _ _ hlen]
    simp only [decide_eq_true_eq]
    constructor
    · intro hh; exact List.ext_getElem hlen (fun i h1 h2 => hh i h1 h2)
    · rintro rfl i _ _; rfl
  · rw [if_pos hlen]
    have : S r ≠ rhs := fun e => hlen (by rw [e])
    simp [this]

/-! ### Outside the requirements -/

theorem shift_self (el : Elem α) (size idx : Nat) : ∀ (k : Nat) (b : Buf α), idx + k ≤ size →
    (∀ j, j < size → Live b j) →
    ∃ b', shiftLoop el size 0 idx k b = some b' ∧ b'.length = b.length ∧
      ∀ j, b'[j]? = if idx ≤ j ∧ j < idx + k then b[j]?.map (fun o => o.map el.selfMove) else b[j]? := by
  intro k
  induction k with
  | zero => intro b _ _; exact ⟨b, rfl, rfl, fun j => by rw [if_neg (by omega)]⟩
  | succ k ih =>
    intro b hk hb
    obtain ⟨v, hv⟩ := hb (idx + k) (by omega)
    have hlt : idx + k < b.length := (List.getElem?_eq_some_iff.1 hv).1
    have : moveSlot el size b (idx + k + 0) (idx + k) = some (b.set (idx + k) (some (el.selfMove v))) := by
      unfold moveSlot
      simp only [read_live b _ v hv, Option.bind_eq_bind, Option.bind_some]
      rw [if_neg (by omega), if_pos (by omega), Nat.add_zero, assign_live _ _ _ ⟨v, hv⟩]
    simp only [shiftLoop, this, Option.bind_eq_bind, Option.bind_some]
    obtain ⟨b', h1, h2, h3⟩ := ih (b.set (idx + k) (some (el.selfMove v))) (by omega)
      (fun j hj => by
        obtain ⟨w, hw⟩ := hb j hj
        by_cases e : j = idx + k
        · exact ⟨_, by rw [get_set _ _ _ _ hlt, if_pos e]⟩
        · exact ⟨w, by rw [get_set _ _ _ _ hlt, if_neg e, hw]⟩)
    refine ⟨b', h1, by rw [h2]; simp, fun j => ?_⟩
    rw [h3 j, get_set _ _ _ _ hlt]
    by_cases e : j = idx + k
    · subst e
      rw [if_neg (by omega), if_pos rfl, if_pos (by omega), hv]; rfl
    · rw [if_neg e]
      by_cases c : idx ≤ j ∧ j < idx + k
      · rw [if_pos c, if_pos (by omega)]
      · rw [if_neg c, if_neg (by omega)]

/-- Inserting an empty range into inline data self-move-assigns every element from the
position on: unlike with `std::vector`, the elements are lost if their type does not keep
its value then (e.g. if it is itself a `SmallVector`, see `selfMove_inline_empties`). -/
theorem insert_empty_range (el : Elem α) (s : SV α) (xs : List α) (idx : Nat) (h : Good s xs)
    (hl : s.large = none) (hi : idx ≤ xs.length) :
    ∃ s', insert el s idx [] = some s' ∧ Good s' (xs.take idx ++ (xs.drop idx).map el.selfMove) := by
  obtain ⟨s1, h1, h2, h3, h4⟩ := maybeLarge_spec el s xs h (decide (s.size + ([] : List α).length > s.cap))
  obtain ⟨hr, hs⟩ := h.inline hl
  have hrl := hr.1
  have hs1 : s1 = s := by
    rcases h4 with ⟨_, h4, _⟩ | ⟨h4, _⟩
    · simp [SV.cap] at h4; omega
    · exact h4
  subst hs1
  unfold insert
  rw [h1, Option.bind_some]
  unfold insertCore
  rw [hl]
  obtain ⟨b', g1, g2, g3⟩ := shift_self el s1.size idx (s1.size - idx) s1.buf (by omega)
    (fun j hj => ⟨_, hr.live (by omega)⟩)
  simp only [List.length_nil, g1, fillLoop, Option.bind_eq_bind, Option.bind_some]
  refine ⟨_, rfl, good_inline _ _ _ ⟨by rw [g2]; simp; omega, fun j hj => ?_⟩ (by simp; omega)⟩
  rw [g2] at hj
  rw [g3 j, hr.2 j hj]
  by_cases c : j < idx
  · rw [if_neg (by omega), List.getElem?_append_left (by simp; omega), List.getElem?_take_of_lt c]
  · rw [List.getElem?_append_right (by simp; omega), List.getElem?_map, List.getElem?_drop, List.length_take,
      Nat.min_eq_left hi, show idx + (j - idx) = j by omega]
    by_cases c2 : j < s1.size
    · rw [if_pos (by omega)]; simp
    · rw [if_neg (by omega), List.getElem?_eq_none (by omega)]; simp

theorem selfMoveLoop_sz (el : Elem α) (c : Nat) : ∀ (i : Nat) (b : Buf α) (n : Nat), Sz b n → i + c ≤ n →
    ∃ b', selfMoveLoop el i c b = some b' ∧ b'.length = b.length ∧ Sz b' n := by
  induction c with
  | zero => intro i b n h _; exact ⟨b, rfl, rfl, h⟩
  | succ c ih =>
    intro i b n h hi
    obtain ⟨v, hv⟩ := h.2.1 i (by omega)
    have hlt : i < b.length := (List.getElem?_eq_some_iff.1 hv).1
    simp only [selfMoveLoop, read_live b i v hv, assign_live b i _ ⟨v, hv⟩, Option.bind_eq_bind, Option.bind_some]
    obtain ⟨b', h1, h2, h3⟩ := ih (i + 1) (b.set i (some (el.selfMove v))) n
      ⟨by simpa using h.1, fun j hj => by
        obtain ⟨w, hw⟩ := h.2.1 j hj
        by_cases e : j = i
        · exact ⟨_, by rw [get_set _ _ _ _ hlt, if_pos e]⟩
        · exact ⟨w, by rw [get_set _ _ _ _ hlt, if_neg e, hw]⟩,
       fun j a c => by
        rw [List.length_set] at c
        unfold Raw
        rw [get_set _ _ _ _ hlt, if_neg (by omega)]; exact h.2.2 j a c⟩ (by omega)
    exact ⟨b', h1, by rw [h2]; simp, h3⟩

/-- Moving a vector to itself is not undefined, but empties an inline vector; heap data is
kept. -/
theorem selfMove_result (el : Elem α) (s : SV α) (xs : List α) (h : Good s xs) :
    ∃ s', selfMoveAssign el s = some s' ∧ Good s' (if s.large = none then [] else xs) := by
  unfold selfMoveAssign
  cases hl : s.large with
  | some l =>
    obtain ⟨b', h1, h2, h3⟩ := destructSmall_spec s h.sz
    simp only [h1]
    refine ⟨_, rfl, ?_⟩
    rw [hl, h.heap hl]
    simp only [reduceCtorEq, if_false]
    exact good_heap _ _ _ h3.sz
  | none =>
    obtain ⟨b, g1, g2, g3⟩ := selfMoveLoop_sz el s.size 0 s.buf s.size h.sz (by omega)
    simp only [g1, Option.bind_eq_bind, Option.bind_some]
    obtain ⟨b', h1, h2, h3⟩ := destructSmall_spec { s with buf := b } g3
    rw [hl] at h1
    simp only [if_true]
    exact ⟨_, h1, good_inline _ _ _ h3 rfl⟩

/-- `v.push_back(v[i])`, legal for `std::vector`, reads a destroyed object when the inline
buffer is full. -/
theorem pushOwn_full (el : Elem α) (s : SV α) (xs : List α) (h : Good s xs) (hl : s.large = none)
    (hf : xs.length = s.cap) (i : Nat) : pushOwn el s i = none := by
  obtain ⟨hr, hs⟩ := h.inline hl
  obtain ⟨b', h1, h2, h3⟩ := moveToLarge_spec el s xs h hl
  unfold pushOwn makeRoom
  rw [if_pos (by simp [hl, hs, hf])]
  simp only [h1, hl, Option.bind_eq_bind, Option.bind_some]
  have : read b' i = none := by
    unfold read
    by_cases hi : i < b'.length
    · rw [h3.2 i hi]; simp
    · rw [List.getElem?_eq_none (by omega)]
  simp [this]

/-! ### A concrete history -/
namespace Example
def el : Elem Nat := ⟨fun _ => 0, id⟩
def ops : List (Op Nat) :=
  [.newVector 0 [1, 2], .push 0 3, .insert 0 1 [7, 8], .copyAssign 1 0, .erase 1 0 3, .newInit 2 [5],
   .insert 2 0 [4], .copyAssign 2 1, .moveAssign 1 0, .resize 2 1 9, .pop 1, .clear 0, .newMove 3 1]

example : Spec.run (fun _ => []) ops ≠ none := by decide
example : ((run el 2 (fun _ => create 2) ops).map (fun st => [0, 1, 2, 3].map (fun r =>
    (List.range 5).filterMap (st r).at))) = some [[], [], [2], [1, 7, 8, 2]] := by decide
/-- `pushOwn_full`'s hypotheses are met by a full inline vector. -/
example : pushOwn el ⟨2, [some 1, some 2], none⟩ 0 = none := by decide
end Example

end Verif.SmallVector
