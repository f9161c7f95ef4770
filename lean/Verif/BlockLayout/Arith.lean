import Verif.BlockLayout.Spec
/-! # Lemmas: arithmetic, sorting, alignments -/
set_option linter.unusedSimpArgs false
set_option linter.unusedVariables false
namespace Verif.BlockLayout

theorem w_of_lt {n : Nat} (h : n < 2 ^ 32) : w n = n := Nat.mod_eq_of_lt h

theorem w_lt (n : Nat) : w n < 2 ^ 32 := Nat.mod_lt _ (by decide)

theorem w_pred {n : Nat} (h : 1 ≤ n) (h' : n < 2 ^ 32) : w (n + (2 ^ 32 - 1)) = n - 1 := by
  unfold w; omega

theorem and_high {x k : Nat} (hk : k ≤ 32) (hx : x < 2 ^ 32) : x &&& (2 ^ 32 - 2 ^ k) = x - x % 2 ^ k := by
  have h1 : 2 ^ 32 - 2 ^ k = 2 ^ k * (2 ^ (32 - k) - 1) := by
    rw [Nat.mul_sub, ← Nat.pow_add, Nat.add_sub_cancel' hk, Nat.mul_one]
  have h2 : x - x % 2 ^ k = 2 ^ k * (x / 2 ^ k) := by
    have := Nat.div_add_mod x (2 ^ k); omega
  rw [h1, h2]
  apply Nat.eq_of_testBit_eq
  intro i
  rw [Nat.testBit_and, Nat.testBit_two_pow_mul, Nat.testBit_two_pow_mul, Nat.testBit_two_pow_sub_one,
    Nat.testBit_div_two_pow]
  by_cases hi : k ≤ i
  · simp only [hi, decide_true, Bool.true_and, Nat.sub_add_cancel hi]
    by_cases h : i - k < 32 - k
    · simp [h]
    · have : x < 2 ^ i := Nat.lt_of_lt_of_le hx (Nat.pow_le_pow_right (by decide) (by omega))
      simp [h, Nat.testBit_lt_two_pow this]
  · simp [hi]

theorem alignTo_pow {v k : Nat} (hk : k ≤ 31) (hv : v + 2 ^ k ≤ 2 ^ 32) :
    alignTo v (2 ^ k) = (v + 2 ^ k - 1) - (v + 2 ^ k - 1) % 2 ^ k := by
  have hp : 0 < 2 ^ k := Nat.two_pow_pos k
  have : w (v + 2 ^ k + (2 ^ 32 - 1)) = v + 2 ^ k - 1 := w_pred' hp hv
  rw [alignTo, this, and_high (by omega) (by omega)]
where
  w_pred' {v a : Nat} (hp : 0 < a) (hv : v + a ≤ 2 ^ 32) : w (v + a + (2 ^ 32 - 1)) = v + a - 1 := by
    unfold w; omega

theorem alignTo_ge {v k : Nat} (hk : k ≤ 31) (hv : v + 2 ^ k ≤ 2 ^ 32) : v ≤ alignTo v (2 ^ k) := by
  rw [alignTo_pow hk hv]
  have := Nat.mod_lt (v + 2 ^ k - 1) (Nat.two_pow_pos k)
  omega

theorem alignTo_16 (k : Nat) (hk : k ≤ 30) : alignTo (2 ^ k) 16 = 2 ^ max k 4 := by
  have : ∀ k : Fin 31, alignTo (2 ^ k.1) 16 = 2 ^ max k.1 4 := by decide +kernel
  exact this ⟨k, by omega⟩

/-! ## Powers of two -/

/-- The alignments that occur. -/
def Pow (a : Nat) : Prop := ∃ k ≤ 30, a = 2 ^ k

theorem Pow.pos {a : Nat} (h : Pow a) : 0 < a := by
  obtain ⟨k, _, rfl⟩ := h; exact Nat.two_pow_pos k

theorem Pow.dvd_of_le {a b : Nat} (ha : Pow a) (hb : Pow b) (h : a ≤ b) : a ∣ b := by
  obtain ⟨i, _, rfl⟩ := ha; obtain ⟨j, _, rfl⟩ := hb
  exact Nat.pow_dvd_pow 2 ((Nat.pow_le_pow_iff_right (by decide)).1 h)

theorem Pow.max {a b : Nat} (ha : Pow a) (hb : Pow b) : Pow (max a b) := by
  rcases Nat.le_total a b with h | h
  · rwa [Nat.max_eq_right h]
  · rwa [Nat.max_eq_left h]

theorem ext16_pow {mode : Mode} {a : Nat} (h : Pow a) : Pow (ext16 mode a) ∧ a ∣ ext16 mode a := by
  unfold ext16
  split
  · obtain ⟨k, hk, rfl⟩ := h
    rw [alignTo_16 k hk]
    exact ⟨⟨_, by omega, rfl⟩, Nat.pow_dvd_pow 2 (by omega)⟩
  · exact ⟨h, Nat.dvd_refl _⟩

theorem maxAlign_pow {mode : Mode} : ∀ {bs : List Nat} {a : Nat}, Pow a → (∀ b ∈ bs, Pow b) →
    Pow (maxAlign mode a bs) ∧ a ∣ maxAlign mode a bs ∧ ∀ b ∈ bs, b ∣ maxAlign mode a bs
  | [], a, ha, _ => ⟨ha, Nat.dvd_refl _, by simp⟩
  | b :: bs, a, ha, hb => by
    have hb0 := hb b (by simp)
    have hm := ext16_pow (mode := mode) (ha.max hb0)
    obtain ⟨h1, h2, h3⟩ := maxAlign_pow (mode := mode) (bs := bs) hm.1 (fun x hx => hb x (by simp [hx]))
    rw [maxAlign]
    refine ⟨h1, ?_, ?_⟩
    · exact Nat.dvd_trans (Nat.dvd_trans (ha.dvd_of_le (ha.max hb0) (Nat.le_max_left _ _)) hm.2) h2
    · intro x hx
      rcases List.mem_cons.1 hx with rfl | hx
      · exact Nat.dvd_trans (Nat.dvd_trans (hb0.dvd_of_le (ha.max hb0) (Nat.le_max_right _ _)) hm.2) h2
      · exact h3 x hx

theorem Width.pow {b : Nat} (h : Width b) : Pow b := by
  rcases h with rfl | rfl | rfl | rfl
  · exact ⟨0, by omega, rfl⟩
  · exact ⟨1, by omega, rfl⟩
  · exact ⟨2, by omega, rfl⟩
  · exact ⟨3, by omega, rfl⟩

theorem vecFactor_cases {n : Nat} (h : 1 ≤ n) : vecFactor n = 1 ∨ vecFactor n = 2 ∨ vecFactor n = 4 := by
  unfold vecFactor; split <;> omega

theorem width_mul {b f : Nat} (h : Width b) (hf : f = 1 ∨ f = 2 ∨ f = 4) : Pow (w (b * f)) ∧ b ∣ w (b * f) := by
  have : w (b * f) = b * f := by
    apply w_of_lt
    rcases h with rfl | rfl | rfl | rfl <;> rcases hf with rfl | rfl | rfl <;> decide
  rw [this]
  refine ⟨?_, Nat.dvd_mul_right _ _⟩
  rcases h with rfl | rfl | rfl | rfl <;> rcases hf with rfl | rfl | rfl <;>
    first
      | exact ⟨0, by omega, rfl⟩
      | exact ⟨1, by omega, rfl⟩
      | exact ⟨2, by omega, rfl⟩
      | exact ⟨3, by omega, rfl⟩
      | exact ⟨4, by omega, rfl⟩
      | exact ⟨5, by omega, rfl⟩

theorem vecAlign_pow {mode : Mode} {relaxed allow : Bool} {b n : Nat} (h : Width b) (hn : 1 ≤ n) :
    Pow (vecAlign mode relaxed allow b n) ∧ b ∣ vecAlign mode relaxed allow b n := by
  unfold vecAlign
  split
  · exact ⟨h.pow, Nat.dvd_refl _⟩
  · exact width_mul h (vecFactor_cases hn)

theorem vecAlign_allow {mode : Mode} {relaxed allow : Bool} {b n : Nat} (h : Width b) (hn : 1 ≤ n) :
    vecAlign mode relaxed true b n ∣ vecAlign mode relaxed allow b n := by
  cases allow
  · by_cases hm : mode = .scalar
    · simp [vecAlign, hm]
    · cases relaxed
      · simp [vecAlign, hm]
      · rw [show vecAlign mode true true b n = b by simp [vecAlign]]
        exact (vecAlign_pow h hn).2
  · exact Nat.dvd_refl _

theorem matAlign_pow {mode : Mode} {relaxed : Bool} {mc : MC} {b r c : Nat} (h : Width b)
    (hr : r = 2 ∨ r = 3 ∨ r = 4) (hc : c = 2 ∨ c = 3 ∨ c = 4) :
    Pow (matAlign mode relaxed mc b r c) ∧ b ∣ matAlign mode relaxed mc b r c := by
  unfold matAlign
  split
  · exact ⟨h.pow, Nat.dvd_refl _⟩
  · split
    · have := vecAlign_pow (mode := mode) (relaxed := relaxed) (allow := false) h (n := r) (by omega)
      have h2 := ext16_pow (mode := mode) this.1
      exact ⟨h2.1, Nat.dvd_trans this.2 h2.2⟩
    · have := width_mul h (f := if c = 3 then 4 else c) (by split <;> omega)
      have h2 := ext16_pow (mode := mode) this.1
      exact ⟨h2.1, Nat.dvd_trans this.2 h2.2⟩

/-! ## Sorting -/

theorem insertBy_perm {α : Type} {key : α → Nat} {x : α} : ∀ {l : List α}, (insertBy key x l).Perm (x :: l)
  | [] => .refl _
  | y :: ys => by
    rw [insertBy]
    split
    · exact .refl _
    · exact (insertBy_perm.cons y).trans (.swap _ _ _)

theorem sortBy_perm {α : Type} {key : α → Nat} : ∀ {l : List α}, (sortBy key l).Perm l
  | [] => .refl _
  | x :: xs => insertBy_perm.trans (sortBy_perm.cons x)

theorem insertBy_map {α β : Type} {key : α → Nat} {kb : β → Nat} {f : α → β} (hf : ∀ a, kb (f a) = key a)
    {x : α} : ∀ {l : List α}, (insertBy key x l).map f = insertBy kb (f x) (l.map f)
  | [] => rfl
  | y :: ys => by
    rw [insertBy, List.map_cons, insertBy, hf, hf]
    split
    · rfl
    · rw [List.map_cons, insertBy_map hf]

theorem sortBy_map {α β : Type} {key : α → Nat} {kb : β → Nat} {f : α → β} (hf : ∀ a, kb (f a) = key a) :
    ∀ {l : List α}, (sortBy key l).map f = sortBy kb (l.map f)
  | [] => rfl
  | x :: xs => by rw [sortBy, List.map_cons, sortBy, insertBy_map hf, sortBy_map hf]

theorem insertBy_sorted {α : Type} {key : α → Nat} {x : α} : ∀ {l : List α},
    l.Pairwise (fun a b => key a ≤ key b) → (insertBy key x l).Pairwise (fun a b => key a ≤ key b)
  | [], _ => by simp [insertBy]
  | y :: ys, h => by
    rw [insertBy]
    rw [List.pairwise_cons] at h
    split
    · next hxy =>
      refine List.pairwise_cons.2 ⟨?_, List.pairwise_cons.2 h⟩
      intro z hz
      rcases List.mem_cons.1 hz with rfl | hz
      · exact hxy
      · exact Nat.le_trans hxy (h.1 z hz)
    · next hxy =>
      refine List.pairwise_cons.2 ⟨?_, insertBy_sorted h.2⟩
      intro z hz
      rcases List.mem_cons.1 (insertBy_perm.mem_iff.1 hz) with rfl | hz
      · omega
      · exact h.1 z hz

theorem sortBy_sorted {α : Type} {key : α → Nat} : ∀ {l : List α},
    (sortBy key l).Pairwise (fun a b => key a ≤ key b)
  | [] => .nil
  | x :: xs => insertBy_sorted sortBy_sorted

end Verif.BlockLayout
