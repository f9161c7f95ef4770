import Verif.BitVector.Lemmas

/-!
# C20  BitVector behaves as a set of indices

Specification: a history of operations is replayed on a mathematical set of
`uint32_t` indices (a predicate); every value the vector returns must be the
value the set gives.
-/
namespace Verif.BitVector

/-- Operations of the public interface. `or` carries the history that built the
other operand. -/
inductive Op where
  | set (i : BitVec 32)
  | clear (i : BitVec 32)
  | or (reserved : BitVec 32) (others : List Op)

/-- Running a history on the model, from a vector. -/
def run : Bits → List Op → Bits
  | b, [] => b
  | b, .set i :: ops => run (set b i).1 ops
  | b, .clear i :: ops => run (clear b i).1 ops
  | b, .or r others :: ops => run (or b (run (create r) others)).1 ops

namespace Spec
/-- The mathematical set after a history. -/
def after : (BitVec 32 → Prop) → List Op → (BitVec 32 → Prop)
  | S, [] => S
  | S, .set i :: ops => after (fun j => S j ∨ j = i) ops
  | S, .clear i :: ops => after (fun j => S j ∧ j ≠ i) ops
  | S, .or _ others :: ops => after (fun j => S j ∨ after (fun _ => False) others j) ops
end Spec

theorem bit_create (r : BitVec 32) (j : Nat) : bit (create r) j = false := by
  unfold bit create
  simp only [List.getD_eq_getElem?_getD, List.getElem?_replicate]
  split <;> simp

theorem run_refines : ∀ (ops : List Op) (b : Bits) (S : BitVec 32 → Prop),
    (∀ j : BitVec 32, bit b j.toNat = true ↔ S j) →
    ∀ j : BitVec 32, bit (run b ops) j.toNat = true ↔ Spec.after S ops j := by
  intro ops b S
  induction b, ops using run.induct generalizing S with
  | case1 b => intro h j; simpa [run, Spec.after] using h j
  | case2 b i ops ih =>
    intro h j
    rw [run, Spec.after]
    apply ih
    intro k
    rw [(set_spec b i).1]
    simp [h k, BitVec.toNat_inj]
  | case3 b i ops ih =>
    intro h j
    rw [run, Spec.after]
    apply ih
    intro k
    rw [(clear_spec b i).1]
    simp [h k, BitVec.toNat_inj]
  | case4 b r others ops ih1 ih2 =>
    intro h j
    rw [run, Spec.after]
    apply ih2
    intro k
    rw [or_bits]
    have h2 := ih1 (fun _ => False) (by intro j; simp [bit_create]) k
    simp only [Bool.or_eq_true]
    rw [h k, h2]

/-- C20 (refinement): after any history of `Set`, `Clear` and `Or` from a fresh
vector of any reserved size, `Get` is membership in the mathematical set. -/
theorem get_refines (r : BitVec 32) (ops : List Op) (j : BitVec 32) :
    get (run (create r) ops) j = true ↔ Spec.after (fun _ => False) ops j := by
  rw [get_eq_bit]
  exact run_refines ops (create r) _ (by intro j; simp [bit_create]) j

/-- C20 (results of Set/Clear): both return the membership before the operation. -/
theorem set_clear_results (r : BitVec 32) (ops : List Op) (i : BitVec 32) :
    ((set (run (create r) ops) i).2 = true ↔ Spec.after (fun _ => False) ops i) ∧
    ((clear (run (create r) ops) i).2 = true ↔ Spec.after (fun _ => False) ops i) := by
  have := run_refines ops (create r) (fun _ => False) (by intro j; simp [bit_create]) i
  rw [(set_spec _ i).2, (clear_spec _ i).2]
  exact ⟨this, this⟩

/-- Index range: no history sets a bit at or beyond `2^32`, so words and `uint32_t`
indices carry the same information. -/
theorem run_bit_lt : ∀ (ops : List Op) (b : Bits), (∀ j, bit b j = true → j < 2 ^ 32) →
    ∀ j, bit (run b ops) j = true → j < 2 ^ 32 := by
  intro ops b
  induction b, ops using run.induct with
  | case1 b => intro h j; rw [run]; exact h j
  | case2 b i ops ih =>
    intro h
    rw [run]; apply ih
    intro k hk
    rw [(set_spec b i).1] at hk
    simp only [Bool.or_eq_true, decide_eq_true_eq] at hk
    rcases hk with hk | hk
    · exact h k hk
    · rw [hk]; exact i.isLt
  | case3 b i ops ih =>
    intro h
    rw [run]; apply ih
    intro k hk
    rw [(clear_spec b i).1] at hk
    simp only [Bool.and_eq_true] at hk
    exact h k hk.1
  | case4 b r others ops ih1 ih2 =>
    intro h
    rw [run]; apply ih2
    intro k hk
    rw [or_bits] at hk
    simp only [Bool.or_eq_true] at hk
    rcases hk with hk | hk
    · exact h k hk
    · exact ih1 (by intro j hj; simp [bit_create] at hj) k hk

/-- C20 (equality and emptiness): `operator==` and `Empty` decide equality and
emptiness of the mathematical sets, whatever the two vectors' capacities. -/
theorem beq_empty_refine (r₁ r₂ : BitVec 32) (o₁ o₂ : List Op) :
    (beq (run (create r₁) o₁) (run (create r₂) o₂) = true ↔
      ∀ j, Spec.after (fun _ => False) o₁ j ↔ Spec.after (fun _ => False) o₂ j) ∧
    (empty (run (create r₁) o₁) = true ↔ ∀ j, ¬ Spec.after (fun _ => False) o₁ j) := by
  have h0 : ∀ r : BitVec 32, ∀ j : BitVec 32, bit (create r) j.toNat = true ↔ False := by
    intro r j; simp [bit_create]
  have l1 := run_bit_lt o₁ (create r₁) (by intro j hj; simp [bit_create] at hj)
  have l2 := run_bit_lt o₂ (create r₂) (by intro j hj; simp [bit_create] at hj)
  have r1 := run_refines o₁ (create r₁) _ (h0 r₁)
  have r2 := run_refines o₂ (create r₂) _ (h0 r₂)
  constructor
  · rw [beq_iff]
    constructor
    · intro h j; rw [← r1, ← r2, h]
    · intro h j
      by_cases hj : j < 2 ^ 32
      · have e : (BitVec.ofNat 32 j).toNat = j := by rw [BitVec.toNat_ofNat]; exact Nat.mod_eq_of_lt hj
        have := h (BitVec.ofNat 32 j)
        rw [← r1, ← r2, e] at this
        exact Bool.eq_iff_iff.mpr this
      · have a1 : bit (run (create r₁) o₁) j = false := by
          apply Classical.byContradiction; intro hc; exact hj (l1 j (by simpa using hc))
        have a2 : bit (run (create r₂) o₂) j = false := by
          apply Classical.byContradiction; intro hc; exact hj (l2 j (by simpa using hc))
        rw [a1, a2]
  · rw [empty_iff]
    constructor
    · intro h j hj; rw [← r1, h] at hj; simp at hj
    · intro h j
      apply Classical.byContradiction
      intro hc
      have hc : bit (run (create r₁) o₁) j = true := by simpa using hc
      have hj := l1 j hc
      have e : (BitVec.ofNat 32 j).toNat = j := by rw [BitVec.toNat_ofNat]; exact Nat.mod_eq_of_lt hj
      apply h (BitVec.ofNat 32 j)
      rw [← r1, e]; exact hc

/-- C20 (`Or`'s result). Documented claim: "Return true if |this| changed".
`false` is always truthful; `true` is truthful whenever the other operand has no
more words than this one. Missing for the full claim: when the other operand has
more words the code reports `true` unconditionally, see `or_result_wrong`. -/
theorem or_result_partial (a b : Bits) :
    ((or a b).2 = false → ∀ j : BitVec 32, get (or a b).1 j = get a j) ∧
    (b.length ≤ a.length → (∀ j, bit b j = true → j < 2 ^ 32) → (or a b).2 = true →
      ∃ j : BitVec 32, get (or a b).1 j ≠ get a j) := by
  constructor
  · intro h j; rw [or_false a b h]
  · intro hl hr h
    obtain ⟨j, h1, h2⟩ := or_true a b hl h
    have hj := hr j h1
    refine ⟨BitVec.ofNat 32 j, ?_⟩
    have e : (BitVec.ofNat 32 j).toNat = j := by rw [BitVec.toNat_ofNat]; exact Nat.mod_eq_of_lt hj
    rw [get_eq_bit, get_eq_bit, e, or_bits, h1, h2]; simp

/-- The documented claim about `Or`'s result is false of the code: a fresh vector
of capacity 64 or-ed with an empty one of capacity 1024 reports a change although
no bit changes. -/
theorem or_result_wrong :
    (or (create 64) (create 1024)).2 = true ∧
    ∀ j : BitVec 32, get (or (create 64) (create 1024)).1 j = get (create 64) j := by
  constructor
  · decide
  · intro j
    rw [get_eq_bit, get_eq_bit, or_bits, bit_create, bit_create]; rfl

/-! ### Non-vacuity -/
example : get (run (create 64) [.set 3, .set 100, .clear 3, .or 1024 [.set 7]]) 7 = true := by
  simp only [run]; decide
example : get (run (create 64) [.set 3, .set 100, .clear 3, .or 1024 [.set 7]]) 3 = false := by
  simp only [run]; decide
example : (or (run (create 64) [.set 3]) (run (create 64) [.set 4])).2 = true := by
  simp only [run]; decide
example : beq (run (create 64) [.set 3]) (run (create 1024) [.set 3]) = true := by
  simp only [run]; decide

end Verif.BitVector
