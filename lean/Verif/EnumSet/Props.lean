import Verif.EnumSet.Iter

/-!
# C17  EnumSet behaves as a mathematical set

Specification: a history of insertions and erasures is replayed on a predicate
(`Spec.after`). The constructors from a value, an initializer list, an array or a
range are histories of insertions (source/enum_set.h:194-216, 272-277); copying
and copy-assignment copy both fields and are the identity on the model.
-/
namespace Verif.EnumSet

inductive Op where
  | insert (v : Nat)
  | erase (v : Nat)
  deriving Repr

/-- Running a history on the model; `none` would be undefined behaviour. -/
def run : ESet → List Op → Option ESet
  | s, [] => some s
  | s, .insert v :: ops => match insert s v with
    | none => none
    | some (s', _, _) => run s' ops
  | s, .erase v :: ops => match erase s v with
    | none => none
    | some (s', _) => run s' ops

namespace Spec
def after : (Nat → Prop) → List Op → (Nat → Prop)
  | S, [] => S
  | S, .insert v :: ops => after (fun x => S x ∨ x = v) ops
  | S, .erase v :: ops => after (fun x => S x ∧ x ≠ v) ops

/-- The set a history builds from nothing. -/
def built (ops : List Op) : Nat → Prop := after (fun _ => False) ops
end Spec

theorem after_congr (ops : List Op) : ∀ S T : Nat → Prop, (∀ x, S x ↔ T x) →
    ∀ x, Spec.after S ops x ↔ Spec.after T ops x := by
  induction ops with
  | nil => intro S T h; exact h
  | cons o ops ih =>
    intro S T h
    cases o with
    | insert v => exact ih _ _ (by intro x; simp [h])
    | erase v => exact ih _ _ (by intro x; simp [h])

theorem run_inv (ops : List Op) : ∀ s, Inv s →
    ∃ s', run s ops = some s' ∧ Inv s' ∧
      ∀ x, Mem s'.buckets x ↔ Spec.after (Mem s.buckets) ops x := by
  induction ops with
  | nil => intro s h; exact ⟨s, rfl, h, fun x => Iff.rfl⟩
  | cons o ops ih =>
    intro s h
    cases o with
    | insert v =>
      obtain ⟨s', bi, off, b, e, hi, hm, _⟩ := insert_spec s h v
      obtain ⟨s'', e', hi', hm'⟩ := ih s' hi
      refine ⟨s'', by simp only [run, e, e'], hi', ?_⟩
      intro x; rw [hm']; exact after_congr ops _ _ hm x
    | erase v =>
      obtain ⟨s', n, e, hi, hm, _⟩ := erase_spec s h v
      obtain ⟨s'', e', hi', hm'⟩ := ih s' hi
      refine ⟨s'', by simp only [run, e, e'], hi', ?_⟩
      intro x; rw [hm']; exact after_congr ops _ _ hm x

theorem inv_empty : Inv empty := by
  refine ⟨⟨?_, ?_, ?_⟩, ?_⟩ <;> simp [empty, card]

theorem run_built (ops : List Op) :
    ∃ s, run empty ops = some s ∧ Inv s ∧ ∀ x, Mem s.buckets x ↔ Spec.built ops x := by
  obtain ⟨s, e, hi, hm⟩ := run_inv ops empty inv_empty
  refine ⟨s, e, hi, ?_⟩
  intro x; rw [hm]
  apply after_congr
  intro y
  simp only [iff_false]
  rintro ⟨c, hc, _⟩
  simp [empty] at hc

/-- C17 (no undefined behaviour, membership): every history of insertions and
erasures runs without an out-of-bounds access or failed assertion, and afterwards
`contains` is membership in the mathematical set. -/
theorem contains_refines (ops : List Op) :
    ∃ s, run empty ops = some s ∧
      ∀ v, ∃ b, contains s v = some b ∧ (b = true ↔ Spec.built ops v) := by
  obtain ⟨s, e, hi, hm⟩ := run_built ops
  refine ⟨s, e, ?_⟩
  intro v
  obtain ⟨b, hb, hb'⟩ := contains_spec s hi.wf v
  exact ⟨b, hb, by rw [hb', hm]⟩

/-- C17 (results of insert and erase): after any history, `insert v` succeeds,
reports "inserted" exactly when `v` was absent and returns an iterator that
dereferences to `v`; `erase v` returns 1 exactly when `v` was present, else 0. -/
theorem insert_erase_results (ops : List Op) (v : Nat) :
    ∃ s, run empty ops = some s ∧
      (∃ s' bi off b, insert s v = some (s', (bi, off), b) ∧
        (b = true ↔ ¬ Spec.built ops v) ∧ deref s' bi off = some v) ∧
      (∃ s' n, erase s v = some (s', n) ∧ (n = 1 ∧ Spec.built ops v ∨ n = 0 ∧ ¬ Spec.built ops v)) := by
  obtain ⟨s, e, hi, hm⟩ := run_built ops
  refine ⟨s, e, ?_, ?_⟩
  · obtain ⟨s', bi, off, b, e1, hi', _, hb, bk, hbk, hv, ho, hbit⟩ := insert_spec s hi v
    refine ⟨s', bi, off, b, e1, by rw [hb, hm], ?_⟩
    have hlt : bi < s'.buckets.length := (List.getElem?_eq_some_iff.mp hbk).1
    unfold deref
    rw [hasEnumAt_eq s' bi off hlt ho]
    have : bitAt s'.buckets (64 * bi + off) = true := by
      unfold bitAt
      rw [show (64 * bi + off) / 64 = bi by omega, show (64 * bi + off) % 64 = off by omega, hbk]
      exact hbit
    rw [this, hbk]; simp [valueOf, hv]
  · obtain ⟨s', n, e1, _, _, hn, hn'⟩ := erase_spec s hi v
    refine ⟨s', n, e1, ?_⟩
    rw [hm] at hn'
    by_cases h : Spec.built ops v
    · exact .inl ⟨hn'.mpr h, h⟩
    · have : n ≠ 1 := fun h1 => h (hn'.mp h1)
      exact .inr ⟨by omega, h⟩

/-- C17 (iteration, size, emptiness): a `for` loop over the set terminates without
undefined behaviour and yields exactly the members, once each, in increasing
order; `size()` is their number and `empty()` says whether there are none. -/
theorem iterate_refines (ops : List Op) :
    ∃ s l, run empty ops = some s ∧ iterate s = some l ∧
      l.Pairwise (· < ·) ∧ (∀ v, v ∈ l ↔ Spec.built ops v) ∧
      s.size = l.length ∧ (isEmpty s = true ↔ ∀ v, ¬ Spec.built ops v) := by
  obtain ⟨s, e, hi, hm⟩ := run_built ops
  obtain ⟨l, hl, hs, hmem⟩ := iterate_spec s hi.wf
  have hle : l = elems s.buckets := by
    apply sorted_ext _ _ hs (elems_sorted _ hi.wf)
    intro v; rw [hmem, mem_elems _ hi.wf]
  have hsize : s.size = l.length := by rw [hi.size, hle, elems_length]
  have hmem' : ∀ v, v ∈ l ↔ Spec.built ops v := fun v => by rw [hmem, hm]
  refine ⟨s, l, e, hl, hs, hmem', hsize, ?_⟩
  simp only [isEmpty, hsize, decide_eq_true_eq, List.length_eq_zero_iff]
  constructor
  · rintro h v hv; rw [← hmem', h] at hv; simp at hv
  · intro h
    cases l with
    | nil => rfl
    | cons x l => exact absurd ((hmem' x).mp (by simp)) (h x)

/-- C17 (HasAnyOf): true exactly when the argument is empty or the sets meet. -/
theorem hasAnyOf_refines (o₁ o₂ : List Op) :
    ∃ s t, run empty o₁ = some s ∧ run empty o₂ = some t ∧
      (hasAnyOf s t = true ↔
        (∀ v, ¬ Spec.built o₂ v) ∨ ∃ v, Spec.built o₁ v ∧ Spec.built o₂ v) := by
  obtain ⟨s, e, hi, hm⟩ := run_built o₁
  obtain ⟨t, l, e', hl, _, hmem, hsz, hemp⟩ := iterate_refines o₂
  obtain ⟨t', e'', hi', hm'⟩ := run_built o₂
  rw [e'] at e''; injection e'' with e''; subst e''
  refine ⟨s, t, e, e', ?_⟩
  unfold hasAnyOf
  by_cases h : isEmpty t = true
  · rw [if_pos h]; simp only [true_iff]; left; exact hemp.mp h
  · rw [if_neg h, hasAnyLoop_spec _ _ hi.wf hi'.wf]
    have : ¬ ∀ v, ¬ Spec.built o₂ v := fun hh => h (hemp.mpr hh)
    simp only [this, false_or, hm, hm']

/-- C17 (equality): `operator==` holds exactly when the two sets have the same
members, whatever histories built them. -/
theorem beq_refines (o₁ o₂ : List Op) :
    ∃ s t, run empty o₁ = some s ∧ run empty o₂ = some t ∧
      (beq s t = true ↔ ∀ v, Spec.built o₁ v ↔ Spec.built o₂ v) := by
  obtain ⟨s, e, hi, hm⟩ := run_built o₁
  obtain ⟨t, e', hi', hm'⟩ := run_built o₂
  refine ⟨s, t, e, e', ?_⟩
  constructor
  · intro h v
    unfold beq at h
    split at h
    · simp at h
    · split at h
      · simp at h
      · have : s.buckets = t.buckets := by simpa using h
        rw [← hm, ← hm', this]
  · intro h
    have : s.buckets = t.buckets := by
      apply buckets_ext _ _ hi.wf hi'.wf
      intro v; rw [hm, hm', h]
    have hs : s.size = t.size := by rw [hi.size, hi'.size, this]
    simp [beq, this, hs]

/-- Finding: the move constructor (source/enum_set.h:223-224) leaves the source
with its old `size_` and no buckets, so a moved-from set reports `size() > 0` and
`!empty()` although it contains nothing. Histories above therefore never reuse a
moved-from set. -/
theorem movedFrom_inconsistent :
    ∃ s, run empty [.insert 3] = some s ∧ isEmpty (movedFrom s) = false ∧
      ∀ v, contains (movedFrom s) v = some false := by
  refine ⟨_, rfl, by decide, ?_⟩
  intro v
  simp [contains, movedFrom, findBucket]

/-! ### Non-vacuity -/
example : (run empty [.insert 5, .insert 700, .insert 64, .erase 5, .insert 64]).map
    (fun s => (s.size, s.buckets.length)) = some (2, 2) := by decide
example : Spec.built [.insert 5, .insert 700, .erase 5] 700 := by simp [Spec.built, Spec.after]
example : ¬ Spec.built [.insert 5, .insert 700, .erase 5] 5 := by simp [Spec.built, Spec.after]

end Verif.EnumSet
