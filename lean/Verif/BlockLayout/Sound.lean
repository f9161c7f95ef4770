import Verif.BlockLayout.Types
/-! # Lemmas: accepted layouts -/
set_option linter.unusedSimpArgs false
set_option linter.unusedVariables false
namespace Verif.BlockLayout

theorem dvd_of_aligned {v a : Nat} (ha : 0 < a) (h : isAlignedTo v a = true) : a ∣ v := by
  simp only [isAlignedTo, Nat.ne_of_gt ha, if_false, decide_eq_true_eq] at h
  exact Nat.dvd_of_mod_eq_zero h

/-- What is known of the members of a struct before it is checked. -/
structure RecOk (m : Rec) : Prop where
  known : m.offset ≠ unknown
  pow : Pow m.align
  fits : m.offset + m.size ≤ 2 ^ 31

theorem nextOffset_ge {mode : Mode} {m : Rec} (h : RecOk m) : m.offset + m.size ≤ nextOffset mode m := by
  have hw : w (m.size + m.offset) = m.offset + m.size := by
    rw [w_of_lt (by have := h.fits; omega), Nat.add_comm]
  unfold nextOffset
  rw [hw]
  split
  · obtain ⟨k, hk, he⟩ := h.pow
    rw [he]
    apply alignTo_ge (by omega)
    have : 2 ^ k ≤ 2 ^ 30 := Nat.pow_le_pow_right (by decide) hk
    have := h.fits
    omega
  · exact Nat.le_refl _

/-- Members that follow one another. -/
def Before (mode : Mode) (a b : Rec) : Prop :=
  a.isRt = false ∧ a.offset + a.size ≤ b.offset ∧ nextOffset mode a ≤ b.offset

theorem walk_spec {mode : Mode} {relaxed : Bool} {inc : Nat} : ∀ {l : List Rec} {next : Nat},
    (∀ m ∈ l, RecOk m) → walk mode relaxed inc next l = true →
    (∀ m ∈ l, next ≤ m.offset) ∧ l.Pairwise (Before mode) ∧ ∀ m ∈ l, ∃ n last, memberOk mode relaxed inc n last m = true
  | [], next, _, _ => by simp
  | m :: ms, next, hr, h => by
    have hm := hr m (by simp)
    rw [walk, if_neg hm.known, Bool.and_eq_true] at h
    obtain ⟨h1, h2, h3⟩ := walk_spec (fun x hx => hr x (by simp [hx])) h.2
    have hn := nextOffset_ge (mode := mode) hm
    have hk := h.1
    simp only [memberOk, Bool.and_eq_true] at hk
    obtain ⟨⟨⟨⟨⟨hrt, _⟩, _⟩, hle⟩, _⟩, _⟩ := hk
    have hle : next ≤ m.offset := by simpa using hle
    refine ⟨?_, List.pairwise_cons.2 ⟨?_, h2⟩, ?_⟩
    · intro x hx
      rcases List.mem_cons.1 hx with rfl | hx
      · exact hle
      · have := h1 x hx; omega
    · intro x hx
      have := h1 x hx
      refine ⟨?_, by omega, this⟩
      have he : ms.isEmpty = false := by cases ms <;> simp_all
      simpa [he] using hrt
    · intro x hx
      rcases List.mem_cons.1 hx with rfl | hx
      · exact ⟨_, _, h.1⟩
      · exact h3 x hx

theorem walk_members {mode : Mode} {relaxed : Bool} {inc : Nat} : ∀ {l : List Rec} {next : Nat},
    (∀ m ∈ l, m.offset ≠ unknown) → walk mode relaxed inc next l = true →
    ∀ m ∈ l, ∃ n last, memberOk mode relaxed inc n last m = true
  | [], next, _, _ => by simp
  | m :: ms, next, hr, h => by
    rw [walk, if_neg (hr m (by simp)), Bool.and_eq_true] at h
    intro x hx
    rcases List.mem_cons.1 hx with rfl | hx
    · exact ⟨_, _, h.1⟩
    · exact walk_members (fun x hx => hr x (by simp [hx])) h.2 x hx

/-- Any two members of a checked struct follow one another, in some order. -/
theorem members_apart {mode : Mode} {relaxed : Bool} {inc : Nat} {l : List Rec} (hr : ∀ m ∈ l, RecOk m)
    (h : walk mode relaxed inc 0 (sortBy Rec.offset l) = true) {k k' : Nat} {m m' : Rec} (hk : l[k]? = some m)
    (hk' : l[k']? = some m') (hne : k ≠ k') : Before mode m m' ∨ Before mode m' m := by
  obtain ⟨_, h2, _⟩ := walk_spec (fun m hm => hr m (sortBy_perm.mem_iff.1 hm)) h
  have h3 : l.Pairwise fun a b => Before mode a b ∨ Before mode b a := by
    refine (sortBy_perm (key := Rec.offset) (l := l)).pairwise (h2.imp .inl) ?_
    exact fun h => h.symm
  have key : ∀ {i j : Nat} {a b : Rec}, l[i]? = some a → l[j]? = some b → i < j → Before mode a b ∨ Before mode b a := by
    intro i j a b hi hj hij
    obtain ⟨hi1, rfl⟩ := List.getElem?_eq_some_iff.1 hi
    obtain ⟨hj1, rfl⟩ := List.getElem?_eq_some_iff.1 hj
    exact List.pairwise_iff_getElem.1 h3 i j hi1 hj1 hij
  rcases Nat.lt_or_gt_of_ne hne with h | h
  · exact key hk hk' h
  · exact (key hk' hk h).symm

theorem members_ok {mode : Mode} {relaxed : Bool} {inc : Nat} {l : List Rec} (hr : ∀ m ∈ l, RecOk m)
    (h : walk mode relaxed inc 0 (sortBy Rec.offset l) = true) {m : Rec} (hm : m ∈ l) :
    ∃ n last, memberOk mode relaxed inc n last m = true := by
  obtain ⟨_, _, h3⟩ := walk_spec (fun m hm => hr m (sortBy_perm.mem_iff.1 hm)) h
  exact h3 m (sortBy_perm.mem_iff.2 hm)

/-- The members lie inside the struct, whose size is the end of one of them. -/
theorem structSize_spec {mode : Mode} {relaxed : Bool} {inc : Nat} {l : List Rec} (hr : ∀ m ∈ l, RecOk m)
    (h : walk mode relaxed inc 0 (sortBy Rec.offset l) = true) :
    (∀ m ∈ l, m.offset + m.size ≤ structSize (l.map fun m => (m.offset, m.size))) ∧
    (l = [] ∨ ∃ m ∈ l, structSize (l.map fun m => (m.offset, m.size)) = m.offset + m.size) := by
  obtain ⟨_, h2, _⟩ := walk_spec (fun m hm => hr m (sortBy_perm.mem_iff.1 hm)) h
  have hmap := sortBy_map (key := Rec.offset) (kb := Prod.fst) (f := fun m : Rec => (m.offset, m.size))
    (fun _ => rfl) (l := l)
  have hp := sortBy_perm (key := Rec.offset) (l := l)
  unfold structSize
  rw [← hmap, List.getLast?_map]
  cases hs : (sortBy Rec.offset l).getLast? with
  | none =>
    have : sortBy Rec.offset l = [] := List.getLast?_eq_none_iff.1 hs
    rw [this] at hp
    have hl : l = [] := by simpa using hp
    subst hl
    simp
  | some z =>
    obtain ⟨ys, hys⟩ := List.getLast?_eq_some_iff.1 hs
    have hz : z ∈ l := hp.mem_iff.1 (by rw [hys]; simp)
    have hzr := hr z hz
    have he : w (z.offset + z.size) = z.offset + z.size := w_of_lt (by have := hzr.fits; omega)
    simp only [Option.map_some, if_neg hzr.known, he]
    refine ⟨?_, .inr ⟨z, hz, rfl⟩⟩
    intro m hm
    have : m ∈ ys ++ [z] := by rw [← hys]; exact hp.mem_iff.2 hm
    rcases List.mem_append.1 this with hm' | hm'
    · rw [hys] at h2
      have := (List.pairwise_append.1 h2).2.2 m hm' z (by simp)
      have := this.2.1
      omega
    · simp at hm'; subst hm'; exact Nat.le_refl _

theorem grid {s e x n i i' : Nat} (y : Nat) (h : e ≤ s) (hx : x + n ≤ e) (hi : i < i') :
    i * s + x + n ≤ i' * s + y := by
  have : (i + 1) * s ≤ i' * s := Nat.mul_le_mul_right s hi
  rw [Nat.add_mul] at this
  omega

theorem grid_end {s e x n i k : Nat} (hx : x + n ≤ e) (hi : i < k) : i * s + x + n ≤ (k - 1) * s + e := by
  have : i * s ≤ (k - 1) * s := Nat.mul_le_mul_right s (by omega)
  omega

/-- Two byte ranges without common byte. -/
def Apart (a n a' n' : Nat) : Prop := a + n ≤ a' ∨ a' + n' ≤ a

/-- What is shown of an object: the size the validator computes is right, its units lie in
it and do not overlap. -/
structure Geo (mc : MC) (t : Ty) : Prop where
  size_eq : size mc t = extent mc t
  inside : ∀ {p a mc' t' n}, sub mc t p = some (a, mc', t') → t'.Leaf n → a + n ≤ size mc t
  apart : ∀ {p p' a mc' t' n a' mc'' t'' n'}, sub mc t p = some (a, mc', t') → t'.Leaf n →
    sub mc t p' = some (a', mc'', t'') → t''.Leaf n' → p ≠ p' → Apart a n a' n'

theorem Geo.size_le {mc : MC} {t : Ty} (h : Geo mc t) : size mc t ≤ extent mc t := Nat.le_of_eq h.size_eq

theorem extents_le : ∀ {infos : List Info} {tys : List Ty} {N : Nat},
    (∀ (k : Nat) (i : Info) (t : Ty), infos[k]? = some i → tys[k]? = some t → i.offset + extent i.mc t ≤ N) →
    extents infos tys ≤ N
  | [], _, _, _ => by simp [extents]
  | _ :: _, [], _, _ => by simp [extents]
  | i :: is, t :: ts, N, h => by
    rw [extents]
    have h1 := h 0 i t rfl rfl
    have h2 := extents_le (infos := is) (tys := ts) fun k i' t' hi ht => h (k + 1) i' t' (by simpa using hi)
      (by simpa using ht)
    omega

theorem Leaf_scalar {b n : Nat} (h : (Ty.scalar b).Leaf n) : n = b := by
  rcases h with h | ⟨a, h⟩ <;> simp_all

theorem Leaf_handle {b n a : Nat} (h : (Ty.handle b a).Leaf n) : n = b := by
  rcases h with h | ⟨a, h⟩ <;> simp_all

theorem Leaf_vector {b k n : Nat} (h : (Ty.vector b k).Leaf n) : False := by
  rcases h with h | ⟨a, h⟩ <;> simp_all

theorem Leaf_matrix {b r c n : Nat} (h : (Ty.matrix b r c).Leaf n) : False := by
  rcases h with h | ⟨a, h⟩ <;> simp_all

theorem Leaf_array {k s el n} (h : (Ty.array k s el).Leaf n) : False := by
  rcases h with h | ⟨a, h⟩ <;> simp_all

theorem Leaf_rtarray {s el n} (h : (Ty.rtarray s el).Leaf n) : False := by
  rcases h with h | ⟨a, h⟩ <;> simp_all

theorem Leaf_struct {is ts n} (h : (Ty.struct is ts).Leaf n) : False := by
  rcases h with h | ⟨a, h⟩ <;> simp_all

theorem sub_vector_leaf {mc : MC} {b k n a : Nat} {p : List Nat} {mc' : MC} {t' : Ty}
    (h : sub mc (.vector b k) p = some (a, mc', t')) (hl : t'.Leaf n) :
    ∃ i, p = [i] ∧ i < k ∧ a = i * b ∧ n = b := by
  unfold sub at h
  split at h
  · simp at h; obtain ⟨_, _, rfl⟩ := h; exact (Leaf_vector hl).elim
  · next i =>
    split at h
    · next hi =>
      simp at h; obtain ⟨rfl, _, rfl⟩ := h
      exact ⟨i, rfl, hi, rfl, Leaf_scalar hl⟩
    · simp at h
  · simp at h

theorem sub_matrix_leaf {mc : MC} {b r c n a : Nat} {p : List Nat} {mc' : MC} {t' : Ty}
    (h : sub mc (.matrix b r c) p = some (a, mc', t')) (hl : t'.Leaf n) :
    ∃ j i, p = [j, i] ∧ j < c ∧ i < r ∧ n = b ∧
      a = if mc.colMajor then j * mc.stride + i * b else i * mc.stride + j * b := by
  unfold sub at h
  split at h
  · simp at h; obtain ⟨_, _, rfl⟩ := h; exact (Leaf_matrix hl).elim
  · next j i =>
    split at h
    · next hi =>
      simp only [Option.some.injEq, Prod.mk.injEq] at h
      obtain ⟨rfl, _, rfl⟩ := h
      exact ⟨j, i, rfl, hi.1, hi.2, Leaf_scalar hl, rfl⟩
    · simp at h
  · simp at h

theorem geo_vector {mc : MC} {b k : Nat} (h : Fine mc (.vector b k)) : Geo mc (.vector b k) := by
  simp only [Fine] at h
  have hs : size mc (.vector b k) = b * k := by rw [size, w_of_lt (by omega)]
  refine ⟨by rw [hs, extent], ?_, ?_⟩
  · intro p a mc' t' n hp hl
    obtain ⟨i, rfl, hi, rfl, rfl⟩ := sub_vector_leaf hp hl
    have : (i + 1) * n ≤ k * n := Nat.mul_le_mul_right _ hi
    rw [hs, Nat.mul_comm n k]
    rw [Nat.add_mul] at this
    omega
  · intro p p' a mc' t' n a' mc'' t'' n' hp hl hp' hl' hne
    obtain ⟨i, rfl, hi, rfl, rfl⟩ := sub_vector_leaf hp hl
    obtain ⟨i', rfl, hi', rfl, rfl⟩ := sub_vector_leaf hp' hl'
    have : i ≠ i' := fun h => hne (by rw [h])
    rcases Nat.lt_or_gt_of_ne this with h | h
    · left
      have := grid (s := n') (e := n') (x := 0) (n := n') 0 (Nat.le_refl _) (by omega) h
      omega
    · right
      have := grid (s := n') (e := n') (x := 0) (n := n') 0 (Nat.le_refl _) (by omega) h
      omega

theorem width_le {b : Nat} (h : Width b) : b ≤ 8 := by rcases h with rfl | rfl | rfl | rfl <;> omega

theorem small_mul {b r : Nat} (hb : b ≤ 8) (hr : r ≤ 4) : b * r < 2 ^ 32 := by
  have : b * r ≤ 8 * 4 := Nat.mul_le_mul hb hr
  omega

theorem geo_matrix {mode : Mode} {relaxed : Bool} {mc : MC} {b r c : Nat} (h : Fine mc (.matrix b r c))
    (h0 : mc.stride ≠ 0) (hc : checkMatrix mode relaxed mc b r c = true) : Geo mc (.matrix b r c) := by
  simp only [Fine, extent] at h
  obtain ⟨hb, hr, hcc, hx⟩ := h
  have hb8 := width_le hb
  simp only [checkMatrix, h0, decide_false, Bool.false_or, Bool.and_eq_true] at hc
  have hst := hc.2
  by_cases hcm : mc.colMajor = true
  · simp only [hcm, if_true, w_of_lt (small_mul hb8 (show r ≤ 4 by omega))] at hst hx
    have hst : r * b ≤ mc.stride := by rw [Nat.mul_comm]; simpa using hst
    have hsz : size mc (.matrix b r c) = c * mc.stride := by
      rw [size, matSize, if_pos hcm, w_of_lt (by omega)]
    refine ⟨by rw [hsz, extent, if_pos hcm], ?_, ?_⟩
    · intro p a mc' t' n hp hl
      obtain ⟨j, i, rfl, hj, hi, rfl, rfl⟩ := sub_matrix_leaf hp hl
      rw [if_pos hcm, hsz]
      have h1 : (i + 1) * n ≤ r * n := Nat.mul_le_mul_right _ hi
      rw [Nat.add_mul] at h1
      have h2 : (j + 1) * mc.stride ≤ c * mc.stride := Nat.mul_le_mul_right _ hj
      rw [Nat.add_mul] at h2
      omega
    · intro p p' a mc' t' n a' mc'' t'' n' hp hl hp' hl' hne
      obtain ⟨j, i, rfl, hj, hi, rfl, rfl⟩ := sub_matrix_leaf hp hl
      obtain ⟨j', i', rfl, hj', hi', rfl, rfl⟩ := sub_matrix_leaf hp' hl'
      rw [if_pos hcm, if_pos hcm]
      have h1 : (i + 1) * n' ≤ r * n' := Nat.mul_le_mul_right _ hi
      have h1' : (i' + 1) * n' ≤ r * n' := Nat.mul_le_mul_right _ hi'
      rw [Nat.add_mul] at h1 h1'
      rcases Nat.lt_trichotomy j j' with h | h | h
      · exact .inl (grid _ hst (by omega) h)
      · subst h
        have : i ≠ i' := fun h => hne (by rw [h])
        rcases Nat.lt_or_gt_of_ne this with h | h
        · left
          have : (i + 1) * n' ≤ i' * n' := Nat.mul_le_mul_right _ h
          rw [Nat.add_mul] at this; omega
        · right
          have : (i' + 1) * n' ≤ i * n' := Nat.mul_le_mul_right _ h
          rw [Nat.add_mul] at this; omega
      · exact .inr (grid _ hst (by omega) h)
  · simp only [hcm, if_false, Bool.false_eq_true, w_of_lt (small_mul hb8 (show c ≤ 4 by omega))] at hst hx
    have hst : c * b ≤ mc.stride := by rw [Nat.mul_comm]; simpa using hst
    have hrs : (r - 1) * mc.stride + mc.stride = r * mc.stride := by
      have : r = (r - 1) + 1 := by omega
      conv => rhs; rw [this, Nat.add_mul]
      omega
    have hsz : size mc (.matrix b r c) = (r - 1) * mc.stride + c * b := by
      rw [size, matSize, if_neg hcm, w_pred (by omega) (by omega), w_of_lt (by omega)]
    refine ⟨by rw [hsz, extent, if_neg hcm], ?_, ?_⟩
    · intro p a mc' t' n hp hl
      obtain ⟨j, i, rfl, hj, hi, rfl, rfl⟩ := sub_matrix_leaf hp hl
      rw [if_neg hcm, hsz]
      have h1 : (j + 1) * n ≤ c * n := Nat.mul_le_mul_right _ hj
      rw [Nat.add_mul] at h1
      exact grid_end (by omega) hi
    · intro p p' a mc' t' n a' mc'' t'' n' hp hl hp' hl' hne
      obtain ⟨j, i, rfl, hj, hi, rfl, rfl⟩ := sub_matrix_leaf hp hl
      obtain ⟨j', i', rfl, hj', hi', rfl, rfl⟩ := sub_matrix_leaf hp' hl'
      rw [if_neg hcm, if_neg hcm]
      have h1 : (j + 1) * n' ≤ c * n' := Nat.mul_le_mul_right _ hj
      have h1' : (j' + 1) * n' ≤ c * n' := Nat.mul_le_mul_right _ hj'
      rw [Nat.add_mul] at h1 h1'
      rcases Nat.lt_trichotomy i i' with h | h | h
      · exact .inl (grid _ hst (by omega) h)
      · subst h
        have : j ≠ j' := fun h => hne (by rw [h])
        rcases Nat.lt_or_gt_of_ne this with h | h
        · left
          have : (j + 1) * n' ≤ j' * n' := Nat.mul_le_mul_right _ h
          rw [Nat.add_mul] at this; omega
        · right
          have : (j' + 1) * n' ≤ j * n' := Nat.mul_le_mul_right _ h
          rw [Nat.add_mul] at this; omega
      · exact .inr (grid _ hst (by omega) h)

/-- What `CheckArrayLayout` checks. -/
theorem checkArray_spec {count : Nat} {s elSize align inc : Nat} {f : Nat → Bool} (hu : s < unknown)
    (h : checkArray count (some s) elSize align inc f = true) :
    s ≠ 0 ∧ isAlignedTo s align = true ∧ elSize ≤ s ∧ f (w inc) = true := by
  simp only [checkArray] at h
  split at h
  · simp at h
  · next h0 =>
    rw [if_neg (Nat.ne_of_lt hu), Bool.and_eq_true, Bool.and_eq_true] at h
    refine ⟨h0, h.1.1, by simpa using h.1.2, ?_⟩
    have := h.2
    rw [elements, if_pos (by omega)] at this
    simp only [List.contains_nil, Bool.false_eq_true, if_false, Bool.and_eq_true, Nat.zero_mul, Nat.zero_add] at this
    exact this.1

theorem sub_array_leaf {mc : MC} {k s : Nat} {el : Ty} {n a : Nat} {p : List Nat} {mc' : MC} {t' : Ty}
    (h : sub mc (.array (some k) (some s) el) p = some (a, mc', t')) (hl : t'.Leaf n) :
    ∃ i q x, p = i :: q ∧ i < k ∧ sub mc el q = some (x, mc', t') ∧ a = i * s + x := by
  unfold sub at h
  split at h
  · simp at h; obtain ⟨_, _, rfl⟩ := h; exact (Leaf_array hl).elim
  · next i q =>
    simp only [Option.getD_some] at h
    split at h
    · next hi =>
      obtain ⟨⟨x, m, t⟩, hx, he⟩ := Option.map_eq_some_iff.1 h
      simp only [Prod.mk.injEq] at he
      obtain ⟨rfl, rfl, rfl⟩ := he
      exact ⟨i, q, x, rfl, hi, hx, rfl⟩
    · simp at h

theorem sub_struct_leaf {mc : MC} {infos : List Info} {tys : List Ty} {n a : Nat} {p : List Nat} {mc' : MC} {t' : Ty}
    (h : sub mc (.struct infos tys) p = some (a, mc', t')) (hl : t'.Leaf n) :
    ∃ k q i t x, p = k :: q ∧ infos[k]? = some i ∧ tys[k]? = some t ∧ sub i.mc t q = some (x, mc', t') ∧
      a = i.offset + x := by
  unfold sub at h
  split at h
  · simp at h; obtain ⟨_, _, rfl⟩ := h; exact (Leaf_struct hl).elim
  · next k q =>
    obtain ⟨i, t, ⟨x, m, t1⟩, hi, ht, hx, he⟩ := subs_eq.1 h
    simp only [Prod.mk.injEq] at he
    obtain ⟨rfl, rfl, rfl⟩ := he
    exact ⟨k, q, i, t, x, rfl, hi, ht, hx, rfl⟩

/-- Facts about the members of an accepted struct. -/
theorem struct_members {mode : Mode} {relaxed : Bool} {mc : MC} {inc : Nat} {infos : List Info} {tys : List Ty}
    (hc : check mode relaxed mc inc (.struct infos tys) = true)
    (hs : ∀ (k : Nat) (i : Info) (t : Ty), infos[k]? = some i → tys[k]? = some t → i.offset < unknown ∧
      FineMember i t ∧
      (check mode relaxed i.mc (w (inc + i.offset)) t = true → i.offset + size i.mc t ≤ 2 ^ 31)) :
    (∀ (k : Nat) (i : Info) (t : Ty), infos[k]? = some i → tys[k]? = some t →
      i.hasOffset = true ∧ (containsMatrix t = true → i.hasMatrix = true ∧ i.mc.stride ≠ 0) ∧
      ∃ n last, memberOk mode relaxed inc n last (mkRec mode relaxed i.mc inc i t) = true) ∧
    (∀ (k k' : Nat) (i i' : Info) (t t' : Ty), infos[k]? = some i → tys[k]? = some t → infos[k']? = some i' →
      tys[k']? = some t' → k ≠ k' →
        (isRt t = false ∧ i.offset + size i.mc t ≤ i'.offset ∧
          nextOffset mode (mkRec mode relaxed i.mc inc i t) ≤ i'.offset) ∨
        (isRt t' = false ∧ i'.offset + size i'.mc t' ≤ i.offset ∧
          nextOffset mode (mkRec mode relaxed i'.mc inc i' t') ≤ i.offset)) ∧
    (∀ (k : Nat) (i : Info) (t : Ty), infos[k]? = some i → tys[k]? = some t →
      i.offset + size i.mc t ≤ structSize (sizes infos tys)) ∧
    (structSize (sizes infos tys) = 0 ∨ ∃ (k : Nat) (i : Info) (t : Ty), infos[k]? = some i ∧ tys[k]? = some t ∧
      structSize (sizes infos tys) = i.offset + size i.mc t) := by
  rw [check, Bool.and_eq_true] at hc
  obtain ⟨hd, hw⟩ := hc
  have hown := fun (k : Nat) (i : Info) (t : Ty) (hi : infos[k]? = some i) (ht : tys[k]? = some t) =>
    mkRec_own (mode := mode) (relaxed := relaxed) (mc := mc) (inc := inc) hd hi ht
  have hmem : ∀ m ∈ recs mode relaxed mc inc infos tys, ∃ (k : Nat) (i : Info) (t : Ty), infos[k]? = some i ∧
      tys[k]? = some t ∧ m = mkRec mode relaxed i.mc inc i t := by
    intro m hm
    obtain ⟨k, hk⟩ := List.mem_iff_getElem?.1 hm
    obtain ⟨i, t, hi, ht, rfl⟩ := recs_get.1 hk
    exact ⟨k, i, t, hi, ht, hown k i t hi ht⟩
  have hkn : ∀ m ∈ sortBy Rec.offset (recs mode relaxed mc inc infos tys), m.offset ≠ unknown := by
    intro m hm
    obtain ⟨k, i, t, hi, ht, rfl⟩ := hmem m (sortBy_perm.mem_iff.1 hm)
    exact Nat.ne_of_lt (hs k i t hi ht).1
  have hok : ∀ m ∈ recs mode relaxed mc inc infos tys, RecOk m := by
    intro m hm
    obtain ⟨n, last, hmo⟩ := walk_members hkn hw m (sortBy_perm.mem_iff.2 hm)
    obtain ⟨k, i, t, hi, ht, rfl⟩ := hmem m hm
    obtain ⟨h1, h2, h3⟩ := hs k i t hi ht
    refine ⟨Nat.ne_of_lt h1, ?_, ?_⟩
    · simpa [mkRec] using align_member h2
    · simp only [memberOk, Bool.and_eq_true] at hmo
      simpa [mkRec] using h3 (by simpa [mkRec] using hmo.2)
  have hget : ∀ {k : Nat} {i : Info} {t : Ty}, infos[k]? = some i → tys[k]? = some t →
      (recs mode relaxed mc inc infos tys)[k]? = some (mkRec mode relaxed i.mc inc i t) := by
    intro k i t hi ht
    exact recs_get.2 ⟨i, t, hi, ht, (hown k i t hi ht).symm⟩
  have hsz := structSize_spec hok hw
  rw [← sizes_eq hown] at hsz
  refine ⟨?_, ?_, ?_, ?_⟩
  · intro k i t hi ht
    obtain ⟨h1, h2⟩ := decorated_get hd hi ht
    exact ⟨h1, h2, members_ok hok hw (List.mem_of_getElem? (hget hi ht))⟩
  · intro k k' i i' t t' hi ht hi' ht' hne
    rcases members_apart hok hw (hget hi ht) (hget hi' ht') hne with ⟨h1, h2, h3⟩ | ⟨h1, h2, h3⟩
    · exact .inl ⟨by simpa [mkRec] using h1, by simpa [mkRec] using h2, h3⟩
    · exact .inr ⟨by simpa [mkRec] using h1, by simpa [mkRec] using h2, h3⟩
  · intro k i t hi ht
    simpa [mkRec] using hsz.1 _ (List.mem_of_getElem? (hget hi ht))
  · rcases hsz.2 with h | ⟨m, hm, he⟩
    · left
      rw [sizes_eq hown, h]; rfl
    · right
      obtain ⟨k, i, t, hi, ht, rfl⟩ := hmem m hm
      exact ⟨k, i, t, hi, ht, by simpa [mkRec] using he⟩

theorem isRt_of_fine {mc : MC} {t : Ty} (h : Fine mc t) : isRt t = false := by
  cases t <;> first | rfl | simp [Fine] at h

/-- The geometry of accepted types. -/
theorem geo {mode : Mode} {relaxed : Bool} (t : Ty) : ∀ {mc : MC} {inc : Nat}, Fine mc t →
    (containsMatrix t = true → mc.stride ≠ 0) → check mode relaxed mc inc t = true → Geo mc t := by
  induction t using Ty.ind with
  | scalar b =>
    intro mc inc _ _ _
    refine ⟨by simp [size, extent], ?_, ?_⟩
    · intro p a mc' t' n hp hl
      simp only [sub] at hp
      split at hp
      · simp at hp; obtain ⟨rfl, _, rfl⟩ := hp; rw [size, Leaf_scalar hl]; omega
      · simp at hp
    · intro p p' a mc' t' n a' mc'' t'' n' hp _ hp' _ hne
      simp only [sub] at hp hp'
      split at hp <;> split at hp' <;> simp_all
  | handle b al =>
    intro mc inc _ _ _
    refine ⟨by simp [size, extent], ?_, ?_⟩
    · intro p a mc' t' n hp hl
      simp only [sub] at hp
      split at hp
      · simp at hp; obtain ⟨rfl, _, rfl⟩ := hp; rw [size, Leaf_handle hl]; omega
      · simp at hp
    · intro p p' a mc' t' n a' mc'' t'' n' hp _ hp' _ hne
      simp only [sub] at hp hp'
      split at hp <;> split at hp' <;> simp_all
  | vector b n => intro mc inc h _ _; exact geo_vector h
  | matrix b r c =>
    intro mc inc h h0 hc
    rw [check] at hc
    exact geo_matrix h (h0 rfl) hc
  | rtarray s el ih => intro mc inc h; simp [Fine] at h
  | array n s el ih =>
    intro mc inc h h0 hc
    simp only [Fine] at h
    obtain ⟨⟨k, rfl, hk⟩, ⟨s, rfl, hsu⟩, hx, hel⟩ := h
    rw [check] at hc
    obtain ⟨hs0, _, hle, hch⟩ := checkArray_spec hsu hc
    have g := ih hel h0 hch
    simp only [extent, Option.getD_some] at hx
    have hk32 : k < 2 ^ 32 := by
      have : (k - 1) * 1 ≤ (k - 1) * s := Nat.mul_le_mul_left _ (by omega)
      omega
    have hsz : size mc (.array (some k) (some s) el) = (k - 1) * s + size mc el := by
      have := g.size_le
      rw [size, arraySize]
      simp only [Option.getD_some, if_neg (Nat.ne_of_lt hsu)]
      rw [w_of_lt hk32, w_pred hk hk32, w_of_lt (by omega)]
    refine ⟨?_, ?_, ?_⟩
    · rw [hsz, extent, g.size_eq]; simp only [Option.getD_some]
    · intro p a mc' t' n hp hl
      obtain ⟨i, q, x, rfl, hi, hq, rfl⟩ := sub_array_leaf hp hl
      rw [hsz]
      exact grid_end (g.inside hq hl) hi
    · intro p p' a mc' t' n a' mc'' t'' n' hp hl hp' hl' hne
      obtain ⟨i, q, x, rfl, hi, hq, rfl⟩ := sub_array_leaf hp hl
      obtain ⟨i', q', x', rfl, hi', hq', rfl⟩ := sub_array_leaf hp' hl'
      rcases Nat.lt_trichotomy i i' with h | h | h
      · exact .inl (grid _ hle (g.inside hq hl) h)
      · subst h
        rcases g.apart hq hl hq' hl' (fun e => hne (by rw [e])) with h | h
        · exact .inl (by omega)
        · exact .inr (by omega)
      · exact .inr (grid _ hle (g.inside hq' hl') h)
  | struct infos tys ih =>
    intro mc inc h _ hc
    simp only [Fine, fines_iff] at h
    obtain ⟨_, hx, hf⟩ := h
    have hd : decorated infos tys = true := by rw [check, Bool.and_eq_true] at hc; exact hc.1
    have hsub : ∀ (k : Nat) (i : Info) (t : Ty), infos[k]? = some i → tys[k]? = some t →
        check mode relaxed i.mc (w (inc + i.offset)) t = true → Geo i.mc t := by
      intro k i t hi ht hct
      exact ih t (List.mem_of_getElem? ht) (hf k i t hi ht).2 (fun hm => ((decorated_get hd hi ht).2 hm).2) hct
    obtain ⟨h1, h2, h3, h4⟩ := struct_members hc fun k i t hi ht => ⟨(hf k i t hi ht).1,
      fineMember_of_fine (hf k i t hi ht).2, fun hct => by
        have := (hsub k i t hi ht hct).size_le
        have := extents_ge hi ht
        omega⟩
    have hg : ∀ {k : Nat} {i : Info} {t : Ty}, infos[k]? = some i → tys[k]? = some t → Geo i.mc t := by
      intro k i t hi ht
      obtain ⟨_, _, n, last, hmo⟩ := h1 k i t hi ht
      simp only [memberOk, Bool.and_eq_true] at hmo
      exact hsub k i t hi ht (by simpa [mkRec] using hmo.2)
    refine ⟨?_, ?_, ?_⟩
    · rw [size, extent]
      apply Nat.le_antisymm
      · rcases h4 with h | ⟨k, i, t, hi, ht, he⟩
        · omega
        · rw [he]
          have := (hg hi ht).size_le
          have := extents_ge hi ht
          omega
      · apply extents_le
        intro k i t hi ht
        rw [← (hg hi ht).size_eq]
        exact h3 k i t hi ht
    · intro p a mc' t' n hp hl
      obtain ⟨k, q, i, t, x, rfl, hi, ht, hq, rfl⟩ := sub_struct_leaf hp hl
      have := (hg hi ht).inside hq hl
      have := h3 k i t hi ht
      rw [size]; omega
    · intro p p' a mc' t' n a' mc'' t'' n' hp hl hp' hl' hne
      obtain ⟨k, q, i, t, x, rfl, hi, ht, hq, rfl⟩ := sub_struct_leaf hp hl
      obtain ⟨k', q', i', t1, x', rfl, hi', ht', hq', rfl⟩ := sub_struct_leaf hp' hl'
      by_cases hkk : k = k'
      · subst hkk
        rw [hi] at hi'; rw [ht] at ht'
        cases hi'; cases ht'
        rcases (hg hi ht).apart hq hl hq' hl' (fun e => hne (by rw [e])) with h | h
        · exact .inl (by omega)
        · exact .inr (by omega)
      · have a1 := (hg hi ht).inside hq hl
        have a2 := (hg hi' ht').inside hq' hl'
        rcases h2 k k' i i' t t1 hi ht hi' ht' hkk with h | h
        · exact .inl (by omega)
        · exact .inr (by omega)

end Verif.BlockLayout
