import Verif.SmallVector.Model
set_option linter.unusedSimpArgs false
set_option linter.unusedVariables false

namespace Verif.SmallVector
variable {α : Type}

/-! ### Slots -/

/-- The buffer holds exactly the objects `xs` in its first slots. -/
def Rep (b : Buf α) (xs : List α) : Prop :=
  xs.length ≤ b.length ∧ ∀ j, j < b.length → b[j]? = some xs[j]?

/-- Slot `j` is live / raw. -/
def Live (b : Buf α) (j : Nat) : Prop := ∃ v, b[j]? = some (some v)
def Raw (b : Buf α) (j : Nat) : Prop := b[j]? = some none

theorem Live.lt {b : Buf α} {j : Nat} (h : Live b j) : j < b.length := by
  obtain ⟨v, h⟩ := h; exact (List.getElem?_eq_some_iff.1 h).1
theorem Raw.lt {b : Buf α} {j : Nat} (h : Raw b j) : j < b.length :=
  (List.getElem?_eq_some_iff.1 h).1

theorem get_set (b : Buf α) (i j : Nat) (x : Option α) (hi : i < b.length) :
    (b.set i x)[j]? = if j = i then some x else b[j]? := by
  rw [List.getElem?_set]
  by_cases h : i = j
  · subst h; simp [hi]
  · rw [if_neg h, if_neg (by omega)]

theorem Rep.live {b : Buf α} {xs : List α} (h : Rep b xs) {j : Nat} (hj : j < xs.length) :
    b[j]? = some (some xs[j]) := by
  rw [h.2 j (by have := h.1; omega), List.getElem?_eq_getElem hj]
theorem Rep.raw {b : Buf α} {xs : List α} (h : Rep b xs) {j : Nat} (hj : xs.length ≤ j)
    (hb : j < b.length) : b[j]? = some none := by
  rw [h.2 j hb, List.getElem?_eq_none hj]

theorem read_live (b : Buf α) (i : Nat) (v : α) (h : b[i]? = some (some v)) : read b i = some v := by
  simp [read, h]
theorem assign_live (b : Buf α) (i : Nat) (v : α) (h : Live b i) :
    assign b i v = some (b.set i (some v)) := by
  obtain ⟨w, h⟩ := h; simp [assign, h]
theorem construct_raw (b : Buf α) (i : Nat) (v : α) (h : Raw b i) :
    construct b i v = some (b.set i (some v)) := by
  unfold Raw at h; simp [construct, h]
theorem destroy_live (b : Buf α) (i : Nat) (h : Live b i) : destroy b i = some (b.set i none) := by
  obtain ⟨w, h⟩ := h; simp [destroy, h]

/-! ### Loops -/

theorem destroyLoop_spec (c : Nat) : ∀ (i : Nat) (b : Buf α), (∀ j, i ≤ j → j < i + c → Live b j) →
    ∃ b', destroyLoop i c b = some b' ∧ b'.length = b.length ∧
      ∀ j, b'[j]? = if i ≤ j ∧ j < i + c then some none else b[j]? := by
  induction c with
  | zero =>
    intro i b _
    exact ⟨b, rfl, rfl, fun j => by rw [if_neg (by omega)]⟩
  | succ c ih =>
    intro i b h
    have hi := h i (by omega) (by omega)
    have hlt := hi.lt
    simp only [destroyLoop, destroy_live b i hi, Option.bind_eq_bind, Option.bind_some]
    have h' : ∀ j, i + 1 ≤ j → j < i + 1 + c → Live (b.set i none) j := by
      intro j h1 h2
      obtain ⟨v, hv⟩ := h j (by omega) (by omega)
      exact ⟨v, by rw [get_set b i j none hlt, if_neg (by omega), hv]⟩
    obtain ⟨b', h1, h2, h3⟩ := ih (i + 1) (b.set i none) h'
    refine ⟨b', h1, by rw [h2, List.length_set], fun j => ?_⟩
    rw [h3 j, get_set b i j none hlt]
    by_cases hj : j = i
    · subst hj; rw [if_neg (by omega), if_pos rfl, if_pos (by omega)]
    · rw [if_neg hj]
      by_cases hj2 : i + 1 ≤ j ∧ j < i + 1 + c
      · rw [if_pos hj2, if_pos (by omega)]
      · rw [if_neg hj2, if_neg (by omega)]

theorem copyLoop_spec (op : Buf α → Nat → α → Option (Buf α)) (P : Buf α → Nat → Prop)
    (hop : ∀ b i v, P b i → i < b.length ∧ op b i v = some (b.set i (some v)))
    (hP : ∀ b i j x, P b j → j ≠ i → i < b.length → P (b.set i x) j)
    (src : Buf α) (c : Nat) : ∀ (i : Nat) (b : Buf α),
    (∀ j, i ≤ j → j < i + c → Live src j) → (∀ j, i ≤ j → j < i + c → P b j) →
    ∃ b', copyLoop op src i c b = some b' ∧ b'.length = b.length ∧
      ∀ j, b'[j]? = if i ≤ j ∧ j < i + c then src[j]? else b[j]? := by
  induction c with
  | zero =>
    intro i b _ _
    exact ⟨b, rfl, rfl, fun j => by rw [if_neg (by omega)]⟩
  | succ c ih =>
    intro i b hs h
    obtain ⟨v, hv⟩ := hs i (by omega) (by omega)
    obtain ⟨hlt, hopi⟩ := hop b i v (h i (by omega) (by omega))
    simp only [copyLoop, read_live src i v hv, hopi, Option.bind_eq_bind, Option.bind_some]
    obtain ⟨b', h1, h2, h3⟩ := ih (i + 1) (b.set i (some v))
      (fun j a1 a2 => hs j (by omega) (by omega))
      (fun j a1 a2 => hP b i j _ (h j (by omega) (by omega)) (by omega) hlt)
    refine ⟨b', h1, by rw [h2, List.length_set], fun j => ?_⟩
    rw [h3 j, get_set b i j _ hlt]
    by_cases hj : j = i
    · subst hj; rw [if_neg (by omega), if_pos rfl, if_pos (by omega), hv]
    · rw [if_neg hj]
      by_cases hj2 : i + 1 ≤ j ∧ j < i + 1 + c
      · rw [if_pos hj2, if_pos (by omega)]
      · rw [if_neg hj2, if_neg (by omega)]

theorem moveLoop_spec (el : Elem α) (op : Buf α → Nat → α → Option (Buf α)) (P : Buf α → Nat → Prop)
    (hop : ∀ b i v, P b i → i < b.length ∧ op b i v = some (b.set i (some v)))
    (hP : ∀ b i j x, P b j → j ≠ i → i < b.length → P (b.set i x) j) (c : Nat) :
    ∀ (i : Nat) (b src : Buf α),
    (∀ j, i ≤ j → j < i + c → Live src j) → (∀ j, i ≤ j → j < i + c → P b j) →
    ∃ b' src', moveLoop el op i c b src = some (b', src') ∧ b'.length = b.length ∧
      src'.length = src.length ∧
      (∀ j, b'[j]? = if i ≤ j ∧ j < i + c then src[j]? else b[j]?) ∧
      (∀ j, Live src j → Live src' j) ∧
      (∀ j, ¬ (i ≤ j ∧ j < i + c) → src'[j]? = src[j]?) := by
  induction c with
  | zero =>
    intro i b src _ _
    exact ⟨b, src, rfl, rfl, rfl, fun j => by rw [if_neg (by omega)], fun j h => h, fun j _ => rfl⟩
  | succ c ih =>
    intro i b src hs h
    obtain ⟨v, hv⟩ := hs i (by omega) (by omega)
    have hslt : i < src.length := (List.getElem?_eq_some_iff.1 hv).1
    obtain ⟨hlt, hopi⟩ := hop b i v (h i (by omega) (by omega))
    simp only [moveLoop, read_live src i v hv, hopi, assign_live src i _ ⟨v, hv⟩,
      Option.bind_eq_bind, Option.bind_some]
    have hsrc : ∀ j, Live src j → Live (src.set i (some (el.moved v))) j := by
      rintro j ⟨w, hw⟩
      by_cases hj : j = i
      · exact ⟨_, by rw [get_set _ _ _ _ hslt, if_pos hj]⟩
      · exact ⟨w, by rw [get_set _ _ _ _ hslt, if_neg hj, hw]⟩
    obtain ⟨b', src', h1, h2, h3, h4, h5, h6⟩ := ih (i + 1) (b.set i (some v)) (src.set i (some (el.moved v)))
      (fun j a1 a2 => hsrc j (hs j (by omega) (by omega)))
      (fun j a1 a2 => hP b i j _ (h j (by omega) (by omega)) (by omega) hlt)
    refine ⟨b', src', h1, by rw [h2, List.length_set], by rw [h3, List.length_set], fun j => ?_,
      fun j hj => h5 j (hsrc j hj), fun j hj => ?_⟩
    · rw [h4 j, get_set b i j _ hlt, get_set src i j _ hslt]
      by_cases hj : j = i
      · subst hj; rw [if_neg (by omega), if_pos rfl, if_pos (by omega), hv]
      · rw [if_neg hj, if_neg hj]
        by_cases hj2 : i + 1 ≤ j ∧ j < i + 1 + c
        · rw [if_pos hj2, if_pos (by omega)]
        · rw [if_neg hj2, if_neg (by omega)]
    · rw [h6 j (by omega), get_set src i j _ hslt, if_neg (by omega)]

theorem op_assign : ∀ (b : Buf α) i v, Live b i → i < b.length ∧ assign b i v = some (b.set i (some v)) :=
  fun b i v h => ⟨h.lt, assign_live b i v h⟩
theorem op_construct : ∀ (b : Buf α) i v, Raw b i → i < b.length ∧ construct b i v = some (b.set i (some v)) :=
  fun b i v h => ⟨h.lt, construct_raw b i v h⟩
theorem live_set : ∀ (b : Buf α) i j x, Live b j → j ≠ i → i < b.length → Live (b.set i x) j := by
  rintro b i j x ⟨w, hw⟩ hj hi
  exact ⟨w, by rw [get_set _ _ _ _ hi, if_neg hj, hw]⟩
theorem raw_set : ∀ (b : Buf α) i j x, Raw b j → j ≠ i → i < b.length → Raw (b.set i x) j := by
  intro b i j x h hj hi
  unfold Raw at *
  rw [get_set _ _ _ _ hi, if_neg hj, h]

theorem fillNew_spec (vs : List α) : ∀ (i : Nat) (b : Buf α), (∀ j, i ≤ j → j < i + vs.length → Raw b j) →
    ∃ b', fillNew i vs b = some b' ∧ b'.length = b.length ∧
      ∀ j, b'[j]? = if i ≤ j ∧ j < i + vs.length then some vs[j - i]? else b[j]? := by
  induction vs with
  | nil =>
    intro i b _
    exact ⟨b, rfl, rfl, fun j => by rw [if_neg (by simp)]⟩
  | cons v vs ih =>
    intro i b h
    simp only [List.length_cons] at h ⊢
    have hi := h i (by omega) (by omega)
    have hlt := hi.lt
    simp only [fillNew, construct_raw b i v hi, Option.bind_eq_bind, Option.bind_some]
    obtain ⟨b', h1, h2, h3⟩ := ih (i + 1) (b.set i (some v))
      (fun j a1 a2 => raw_set b i j _ (h j (by omega) (by omega)) (by omega) hlt)
    refine ⟨b', h1, by rw [h2, List.length_set], fun j => ?_⟩
    rw [h3 j, get_set b i j _ hlt]
    by_cases hj : j = i
    · subst hj; rw [if_neg (by omega), if_pos rfl, if_pos (by omega)]; simp
    · rw [if_neg hj]
      by_cases hj2 : i + 1 ≤ j ∧ j < i + 1 + vs.length
      · rw [if_pos hj2, if_pos (by omega), show j - i = (j - (i + 1)) + 1 by omega]; simp
      · rw [if_neg hj2, if_neg (by omega)]

theorem drainLoop_spec (el : Elem α) (xs : List α) : ∀ (i : Nat) (b : Buf α) (acc : List α),
    (∀ j (hj : j < xs.length), b[i + j]? = some (some xs[j])) →
    ∃ b', drainLoop el i xs.length b acc = some (b', acc ++ xs) ∧ b'.length = b.length ∧
      (∀ j, Live b j → Live b' j) ∧ (∀ j, Raw b j → Raw b' j) := by
  induction xs with
  | nil => intro i b acc _; exact ⟨b, by simp [drainLoop], rfl, fun _ h => h, fun _ h => h⟩
  | cons x xs ih =>
    intro i b acc h
    have hx : b[i]? = some (some x) := h 0 (by simp)
    have hlt : i < b.length := (List.getElem?_eq_some_iff.1 hx).1
    simp only [List.length_cons, drainLoop, read_live b i x hx, assign_live b i _ ⟨x, hx⟩,
      Option.bind_eq_bind, Option.bind_some]
    obtain ⟨b', h1, h2, h3, h4⟩ := ih (i + 1) (b.set i (some (el.moved x))) (acc ++ [x]) (by
      intro j hj
      rw [get_set _ _ _ _ hlt, if_neg (by omega)]
      have := h (j + 1) (by simpa using hj)
      rw [show i + 1 + j = i + (j + 1) by omega, this]; simp)
    refine ⟨b', by rw [h1]; simp, by rw [h2, List.length_set], fun j hj => h3 j ?_, fun j hj => h4 j ?_⟩
    · obtain ⟨w, hw⟩ := hj
      by_cases e : j = i
      · exact ⟨_, by rw [get_set _ _ _ _ hlt, if_pos e]⟩
      · exact ⟨w, by rw [get_set _ _ _ _ hlt, if_neg e, hw]⟩
    · unfold Raw at *
      rw [get_set _ _ _ _ hlt, if_neg (by rintro rfl; rw [hx] at hj; simp at hj), hj]

/-! ### Whole vectors -/

/-- The first `n` slots are live, the others raw. -/
def Sz (b : Buf α) (n : Nat) : Prop :=
  n ≤ b.length ∧ (∀ j, j < n → Live b j) ∧ (∀ j, n ≤ j → j < b.length → Raw b j)

theorem Rep.sz {b : Buf α} {xs : List α} (h : Rep b xs) : Sz b xs.length :=
  ⟨h.1, fun _ hj => ⟨_, h.live hj⟩, fun _ a c => h.raw a c⟩

/-- `s` represents the sequence `xs`: inline, the buffer holds exactly `xs`; on the heap,
the `std::vector` holds `xs`, and the buffer may hold left-over objects. -/
def Good (s : SV α) (xs : List α) : Prop :=
  match s.large with
  | none => Rep s.buf xs ∧ s.size = xs.length
  | some l => l = xs ∧ Sz s.buf s.size

/-- Whatever is represented, `size_` counts the live objects of the buffer. -/
theorem Good.sz {s : SV α} {xs : List α} (h : Good s xs) : Sz s.buf s.size := by
  unfold Good at h
  split at h
  · rw [h.2]; exact h.1.sz
  · exact h.2

theorem Good.inline {s : SV α} {xs : List α} (h : Good s xs) (hl : s.large = none) :
    Rep s.buf xs ∧ s.size = xs.length := by
  unfold Good at h; rw [hl] at h; exact h

theorem Good.heap {s : SV α} {xs l : List α} (h : Good s xs) (hl : s.large = some l) : l = xs := by
  unfold Good at h; rw [hl] at h; exact h.1

theorem good_heap (n : Nat) (b : Buf α) (xs : List α) (h : Sz b n) : Good ⟨n, b, some xs⟩ xs := ⟨rfl, h⟩
theorem good_inline (n : Nat) (b : Buf α) (xs : List α) (h : Rep b xs) (hn : n = xs.length) :
    Good ⟨n, b, none⟩ xs := ⟨h, hn⟩

theorem rep_replicate (cap : Nat) : Rep (List.replicate cap (none : Option α)) [] := by
  refine ⟨by simp, fun j hj => ?_⟩
  simp at hj
  simp [List.getElem?_replicate, hj]

theorem destructSmall_spec (s : SV α) (h : Sz s.buf s.size) :
    ∃ b', destructSmall s = some ⟨0, b', s.large⟩ ∧ b'.length = s.buf.length ∧ Rep b' [] := by
  obtain ⟨b', h1, h2, h3⟩ := destroyLoop_spec s.size 0 s.buf (fun j _ hj => h.2.1 j (by omega))
  refine ⟨b', by simp [destructSmall, h1], h2, by simp, fun j hj => ?_⟩
  rw [h3 j]
  split
  · simp
  · rw [h.2.2 j (by omega) (by omega)]; simp

theorem moveToLarge_spec (el : Elem α) (s : SV α) (xs : List α) (h : Good s xs) (hl : s.large = none) :
    ∃ b', moveToLarge el s = some ⟨0, b', some xs⟩ ∧ b'.length = s.buf.length ∧ Rep b' [] := by
  obtain ⟨hr, hs⟩ := h.inline hl
  obtain ⟨b', h1, h2, h3, h4⟩ := drainLoop_spec el xs 0 s.buf [] (fun j hj => by
    rw [Nat.zero_add]; exact hr.live hj)
  have hsz : Sz b' s.size := by
    refine ⟨by rw [h2, hs]; exact hr.1, fun j hj => h3 j ⟨_, hr.live (by omega)⟩,
      fun j a c => h4 j (hr.raw (by omega) (by omega))⟩
  obtain ⟨b2, g1, g2, g3⟩ := destructSmall_spec { s with buf := b', large := some xs } hsz
  refine ⟨b2, ?_, by rw [g2]; exact h2, g3⟩
  unfold moveToLarge
  rw [hl, hs]
  simp only [h1, Option.bind_eq_bind, Option.bind_some, List.nil_append]
  rw [hs] at g1
  exact g1

/-- The conditional `MoveToLargeData` at the start of the growing operations. -/
theorem maybeLarge_spec (el : Elem α) (s : SV α) (xs : List α) (h : Good s xs) (c : Bool) :
    ∃ s', makeRoom el s c = some s' ∧ Good s' xs ∧
      s'.cap = s.cap ∧
      ((s.large = none ∧ c = true ∧ s'.large = some xs) ∨ (s' = s ∧ (s.large = none → c = false))) := by
  unfold makeRoom
  by_cases hc : (s.large.isNone && c) = true
  · rw [if_pos hc]
    simp only [Bool.and_eq_true, Option.isNone_iff_eq_none] at hc
    obtain ⟨b', h1, h2, h3⟩ := moveToLarge_spec el s xs h hc.1
    exact ⟨_, h1, good_heap _ _ _ h3.sz, h2, Or.inl ⟨hc.1, hc.2, rfl⟩⟩
  · rw [if_neg hc]
    refine ⟨s, rfl, h, rfl, Or.inr ⟨rfl, fun hl => ?_⟩⟩
    simpa [hl] using hc

theorem fromList_spec (cap limit : Nat) (hl : limit ≤ cap + 1) (vs : List α) :
    ∃ s, fromList cap limit vs = some s ∧ Good s vs ∧ s.cap = cap := by
  unfold fromList
  split
  · rename_i hlt
    have hr := rep_replicate (α := α) cap
    obtain ⟨b', h1, h2, h3⟩ := fillNew_spec vs 0 (List.replicate cap none)
      (fun j _ hj => hr.raw (by simp) (by simp; omega))
    rw [h1]
    refine ⟨_, rfl, good_inline _ _ _ ⟨by rw [h2]; simp; omega, fun j hj => ?_⟩ rfl, by simp [SV.cap, h2]⟩
    rw [h3 j]
    rw [h2] at hj
    split
    · simp
    · rw [hr.2 j hj, List.getElem?_eq_none (l := vs) (by omega)]; simp
  · exact ⟨_, rfl, good_heap _ _ _ (rep_replicate cap).sz, by simp [SV.cap]⟩

theorem copyAssign_spec (this that : SV α) (xs ys : List α) (h : Good this xs) (h' : Good that ys)
    (hcap : this.cap = that.cap) :
    ∃ s, copyAssign this that = some s ∧ Good s ys ∧ s.cap = this.cap := by
  unfold copyAssign
  cases hl : that.large with
  | some l =>
    refine ⟨_, rfl, ?_, rfl⟩
    rw [h'.heap hl]
    exact good_heap _ _ _ h.sz
  | none =>
    obtain ⟨hr, hs⟩ := h'.inline hl
    have hz := h.sz
    have hcap' : this.buf.length = that.buf.length := hcap
    obtain ⟨b, h1, h2, h3⟩ := copyLoop_spec assign Live op_assign live_set that.buf
      (min this.size that.size) 0 this.buf (fun j _ hj => ⟨_, hr.live (by omega)⟩)
      (fun j _ hj => hz.2.1 j (by omega))
    simp only [Option.bind_eq_bind, h1, Option.bind_some]
    by_cases hge : min this.size that.size ≥ that.size
    · rw [if_pos hge]
      obtain ⟨b2, g1, g2, g3⟩ := destroyLoop_spec (this.size - min this.size that.size)
        (min this.size that.size) b (fun j a c => by
          obtain ⟨w, hw⟩ := hz.2.1 j (by omega)
          exact ⟨w, by rw [h3 j, if_neg (by omega), hw]⟩)
      simp only [g1, Option.bind_some]
      refine ⟨_, rfl, good_inline _ _ _ ⟨by rw [g2, h2, hcap']; exact hr.1, fun j hj => ?_⟩ hs, by simp [SV.cap, g2, h2]⟩
      rw [g3 j]
      split
      · rw [List.getElem?_eq_none (l := ys) (by omega)]
      · rw [h3 j]; split
        · rw [hr.2 j (by omega)]
        · rw [hz.2.2 j (by omega) (by omega), List.getElem?_eq_none (l := ys) (by omega)]
    · rw [if_neg hge]
      obtain ⟨b2, g1, g2, g3⟩ := copyLoop_spec construct Raw op_construct raw_set that.buf
        (that.size - min this.size that.size) (min this.size that.size) b
        (fun j a c => ⟨_, hr.live (by omega)⟩)
        (fun j a c => by
          have := hz.2.2 j (by omega) (by have := hr.1; omega)
          unfold Raw at *
          rw [h3 j, if_neg (by omega), this])
      simp only [g1, Option.bind_some]
      refine ⟨_, rfl, good_inline _ _ _ ⟨by rw [g2, h2, hcap']; exact hr.1, fun j hj => ?_⟩ hs, by simp [SV.cap, g2, h2]⟩
      rw [g3 j]
      split
      · rw [hr.2 j (by omega)]
      · rw [h3 j]; split
        · rw [hr.2 j (by omega)]
        · rw [hz.2.2 j (by omega) (by omega), List.getElem?_eq_none (l := ys) (by omega)]

theorem moveAssign_spec (el : Elem α) (this that : SV α) (xs ys : List α) (h : Good this xs)
    (h' : Good that ys) (hcap : this.cap = that.cap) :
    ∃ s t, moveAssign el this that = some (s, t) ∧ Good s ys ∧ Good t [] ∧ s.cap = this.cap ∧
      t.cap = that.cap := by
  unfold moveAssign
  cases hl : that.large with
  | some l =>
    obtain ⟨b', h1, h2, h3⟩ := destructSmall_spec { that with large := none } h'.sz
    refine ⟨{ this with large := some l }, ⟨0, b', none⟩, by simp only [h1, Option.bind_eq_bind, Option.bind_some], ?_,
      good_inline _ _ _ h3 rfl, rfl, h2⟩
    rw [h'.heap hl]
    exact good_heap _ _ _ h.sz
  | none =>
    obtain ⟨hr, hs⟩ := h'.inline hl
    have hz := h.sz
    have hcap' : this.buf.length = that.buf.length := hcap
    obtain ⟨b, src, h1, h2, hsl, h3, h4, h5⟩ := moveLoop_spec el assign Live op_assign live_set
      (min this.size that.size) 0 this.buf that.buf (fun j _ hj => ⟨_, hr.live (by omega)⟩)
      (fun j _ hj => hz.2.1 j (by omega))
    have hsz : Sz src that.size := by
      refine ⟨by rw [hsl, hs]; exact hr.1, fun j hj => h4 j ⟨_, hr.live (by omega)⟩, fun j a c => ?_⟩
      unfold Raw
      rw [h5 j (by omega)]; exact hr.raw (by omega) (by omega)
    simp only [Option.bind_eq_bind, h1, Option.bind_some]
    by_cases hge : min this.size that.size ≥ that.size
    · rw [if_pos hge]
      obtain ⟨b2, g1, g2, g3⟩ := destroyLoop_spec (this.size - min this.size that.size)
        (min this.size that.size) b (fun j a c => by
          obtain ⟨w, hw⟩ := hz.2.1 j (by omega)
          exact ⟨w, by rw [h3 j, if_neg (by omega), hw]⟩)
      obtain ⟨bt, t1, t2, t3⟩ := destructSmall_spec { that with buf := src } hsz
      rw [hl] at t1
      simp only [g1, Option.bind_some, t1]
      refine ⟨_, _, rfl, good_inline _ _ _ ⟨by rw [g2, h2, hcap']; exact hr.1, fun j hj => ?_⟩ hs,
        ?_, by simp [SV.cap, g2, h2], by simp [SV.cap, t2, hsl]⟩
      · rw [g3 j]
        split
        · rw [List.getElem?_eq_none (l := ys) (by omega)]
        · rw [h3 j]; split
          · rw [hr.2 j (by omega)]
          · rw [hz.2.2 j (by omega) (by omega), List.getElem?_eq_none (l := ys) (by omega)]
      · exact good_inline _ _ _ t3 rfl
    · rw [if_neg hge]
      obtain ⟨b2, src2, g1, g2, gl, g3, g4, g5⟩ := moveLoop_spec el construct Raw op_construct raw_set
        (that.size - min this.size that.size) (min this.size that.size) b src
        (fun j a c => hsz.2.1 j (by omega))
        (fun j a c => by
          have := hz.2.2 j (by omega) (by have := hr.1; omega)
          unfold Raw at *
          rw [h3 j, if_neg (by omega), this])
      have hsz2 : Sz src2 that.size := by
        refine ⟨by rw [gl, hsl, hs]; exact hr.1, fun j hj => g4 j (hsz.2.1 j hj), fun j a c => ?_⟩
        unfold Raw
        rw [g5 j (by omega)]; exact hsz.2.2 j a (by omega)
      obtain ⟨bt, t1, t2, t3⟩ := destructSmall_spec { that with buf := src2 } hsz2
      rw [hl] at t1
      simp only [g1, Option.bind_some, t1]
      refine ⟨_, _, rfl, good_inline _ _ _ ⟨by rw [g2, h2, hcap']; exact hr.1, fun j hj => ?_⟩ hs,
        ?_, by simp [SV.cap, g2, h2], by simp [SV.cap, t2, gl, hsl]⟩
      · rw [g3 j]
        split
        · rw [h5 j (by omega), hr.2 j (by omega)]
        · rw [h3 j]; split
          · rw [hr.2 j (by omega)]
          · rw [hz.2.2 j (by omega) (by omega), List.getElem?_eq_none (l := ys) (by omega)]
      · exact good_inline _ _ _ t3 rfl

theorem push_spec (el : Elem α) (s : SV α) (xs : List α) (v : α) (h : Good s xs) :
    ∃ s', push el s v = some s' ∧ Good s' (xs ++ [v]) ∧ s'.cap = s.cap := by
  obtain ⟨s1, h1, h2, h3, h4⟩ := maybeLarge_spec el s xs h (s.size == s.cap)
  unfold push
  rw [h1, Option.bind_some]
  unfold pushCore
  cases hl : s1.large with
  | some l =>
    rw [h2.heap hl]
    exact ⟨_, rfl, good_heap _ _ _ h2.sz, h3⟩
  | none =>
    rcases h4 with ⟨_, _, h4⟩ | ⟨rfl, h4⟩
    · rw [hl] at h4; simp at h4
    · have hne := h4 hl
      obtain ⟨hr, hs⟩ := h2.inline hl
      have hlt : s1.size < s1.buf.length := by
        have := hr.1
        have hne' : s1.size ≠ s1.buf.length := by simpa [SV.cap] using hne
        omega
      have hraw : Raw s1.buf s1.size := hr.raw (by omega) hlt
      simp only [construct_raw _ _ _ hraw, Option.bind_some]
      refine ⟨_, rfl, ?_, by simp [SV.cap]⟩
      refine good_inline _ _ _ ⟨by simp; omega, fun j hj => ?_⟩ (by simp [hs])
      rw [List.length_set] at hj
      rw [get_set _ _ _ _ hlt]
      split
      · rename_i e; rw [e, hs]; simp
      · rename_i e
        rw [hr.2 j hj]
        by_cases hjl : j < xs.length
        · rw [List.getElem?_append_left hjl]
        · rw [List.getElem?_eq_none (l := xs) (by omega), List.getElem?_eq_none (l := xs ++ [v]) (by simp; omega)]

theorem pop_spec (s : SV α) (xs : List α) (h : Good s xs) (hne : xs ≠ []) :
    ∃ s', pop s = some s' ∧ Good s' xs.dropLast ∧ s'.cap = s.cap := by
  unfold pop
  have hpos : 0 < xs.length := List.length_pos_iff.2 hne
  cases hl : s.large with
  | some l =>
    have := h.heap hl
    subst this
    simp only
    rw [if_neg (by simpa using hne)]
    exact ⟨_, rfl, good_heap _ _ _ h.sz, rfl⟩
  | none =>
    obtain ⟨hr, hs⟩ := h.inline hl
    simp only
    rw [if_neg (by omega)]
    have hlive : Live s.buf (s.size - 1) := ⟨_, hr.live (by omega)⟩
    simp only [destroy_live _ _ hlive, Option.bind_eq_bind, Option.bind_some]
    refine ⟨_, rfl, ?_, by simp [SV.cap]⟩
    refine good_inline _ _ _ ⟨by have := hr.1; simp; omega, fun j hj => ?_⟩ (by simp [hs])
    rw [List.length_set] at hj
    rw [get_set _ _ _ _ hlive.lt]
    split
    · rename_i e; rw [List.getElem?_eq_none]; simp; omega
    · rename_i e
      rw [hr.2 j hj]
      by_cases hjl : j < xs.length - 1
      · rw [List.getElem?_dropLast, if_pos hjl]
      · rw [List.getElem?_eq_none (l := xs) (by omega), List.getElem?_eq_none]; simp; omega

theorem clear_spec (s : SV α) (xs : List α) (h : Good s xs) :
    ∃ s', clear s = some s' ∧ Good s' [] ∧ s'.cap = s.cap := by
  unfold clear
  cases hl : s.large with
  | some l => exact ⟨_, rfl, good_heap _ _ _ h.sz, rfl⟩
  | none =>
    obtain ⟨b', h1, h2, h3⟩ := destructSmall_spec s h.sz
    simp only [h1]
    exact ⟨_, rfl, by rw [hl]; exact good_inline _ _ _ h3 rfl, h2⟩

theorem setAt_spec (s : SV α) (xs : List α) (h : Good s xs) (i : Nat) (v : α) (hi : i < xs.length) :
    ∃ s', s.setAt i v = some s' ∧ Good s' (xs.set i v) ∧ s'.cap = s.cap := by
  unfold SV.setAt
  cases hl : s.large with
  | some l =>
    have := h.heap hl
    subst this
    simp only [if_pos hi]
    exact ⟨_, rfl, good_heap _ _ _ h.sz, rfl⟩
  | none =>
    obtain ⟨hr, hs⟩ := h.inline hl
    have hlive : Live s.buf i := ⟨_, hr.live hi⟩
    simp only [assign_live _ _ _ hlive, Option.bind_eq_bind, Option.bind_some]
    refine ⟨_, rfl, ?_, by simp [SV.cap]⟩
    refine good_inline _ _ _ ⟨by simpa using hr.1, fun j hj => ?_⟩ (by simp [hs])
    rw [List.length_set] at hj
    rw [get_set _ _ _ _ hlive.lt, List.getElem?_set]
    by_cases e : j = i
    · rw [if_pos e, if_pos e.symm, if_pos hi]
    · rw [if_neg e, if_neg (by omega), hr.2 j hj]

theorem resize_spec (el : Elem α) (s : SV α) (xs : List α) (n : Nat) (v : α) (h : Good s xs) :
    ∃ s', resize el s n v = some s' ∧ Good s' (xs.take n ++ List.replicate (n - xs.length) v) ∧ s'.cap = s.cap := by
  obtain ⟨s1, h1, h2, h3, h4⟩ := maybeLarge_spec el s xs h (decide (n > s.cap))
  unfold resize
  rw [h1, Option.bind_some]
  unfold resizeCore
  cases hl : s1.large with
  | some l =>
    rw [h2.heap hl]
    exact ⟨_, rfl, good_heap _ _ _ h2.sz, h3⟩
  | none =>
    rcases h4 with ⟨_, _, h4⟩ | ⟨rfl, h4⟩
    · rw [hl] at h4; simp at h4
    · have hle : n ≤ s1.buf.length := by simpa [SV.cap] using h4 hl
      obtain ⟨hr, hs⟩ := h2.inline hl
      have hrl := hr.1
      obtain ⟨b, g1, g2, g3⟩ := destroyLoop_spec (s1.size - n) n s1.buf
        (fun j a c => ⟨_, hr.live (by omega)⟩)
      obtain ⟨b2, k1, k2, k3⟩ := fillNew_spec (List.replicate (n - s1.size) v) s1.size b
        (fun j a c => by
          simp only [List.length_replicate] at c
          unfold Raw
          rw [g3 j, if_neg (by omega)]; exact hr.raw (by omega) (by omega))
      simp only [g1, k1, Option.bind_eq_bind, Option.bind_some]
      refine ⟨_, rfl, ?_, by simp [SV.cap, k2, g2]⟩
      refine good_inline _ _ _ ⟨by rw [k2, g2]; simp; omega, fun j hj => ?_⟩ (by simp; omega)
      rw [k2, g2] at hj
      rw [k3 j, g3 j]
      simp only [List.length_replicate]
      by_cases c1 : s1.size ≤ j ∧ j < s1.size + (n - s1.size)
      · rw [if_pos c1, List.getElem?_append_right (by simp; omega), List.getElem?_replicate,
          List.getElem?_replicate, if_pos (by omega), if_pos (by simp; omega)]
      · rw [if_neg c1]
        by_cases c2 : n ≤ j ∧ j < n + (s1.size - n)
        · rw [if_pos c2, List.getElem?_eq_none]; simp; omega
        · rw [if_neg c2, hr.2 j hj]
          by_cases c3 : j < xs.length
          · rw [List.getElem?_append_left (by simp; omega), List.getElem?_take_of_lt (by omega)]
          · rw [List.getElem?_eq_none (l := xs) (by omega), List.getElem?_eq_none]; simp; omega

/-! ### erase and insert -/

theorem moveDown_spec (el : Elem α) (c : Nat) : ∀ (f l : Nat) (b : Buf α), f < l →
    (∀ j, f ≤ j → j < l + c → Live b j) →
    ∃ b', moveDown el f l c b = some b' ∧ b'.length = b.length ∧
      (∀ j, f ≤ j → j < f + c → b'[j]? = b[j + (l - f)]?) ∧
      (∀ j, f + c ≤ j → j < l + c → Live b' j) ∧
      (∀ j, (j < f ∨ l + c ≤ j) → b'[j]? = b[j]?) := by
  induction c with
  | zero =>
    intro f l b hfl h
    exact ⟨b, rfl, rfl, fun j _ _ => by omega, fun j a c => h j (by omega) (by omega), fun j _ => rfl⟩
  | succ c ih =>
    intro f l b hfl h
    obtain ⟨v, hv⟩ := h l (by omega) (by omega)
    have hl : l < b.length := (List.getElem?_eq_some_iff.1 hv).1
    have hf := h f (by omega) (by omega)
    have hlive : Live (b.set f (some v)) l := live_set b f l _ ⟨v, hv⟩ (by omega) hf.lt
    simp only [moveDown, read_live b l v hv, assign_live b f v hf, assign_live _ _ _ hlive,
      Option.bind_eq_bind, Option.bind_some]
    have hget : ∀ j, ((b.set f (some v)).set l (some (el.moved v)))[j]? =
        if j = l then some (some (el.moved v)) else if j = f then some (some v) else b[j]? := by
      intro j
      rw [get_set _ _ _ _ hlive.lt, get_set _ _ _ _ hf.lt]
    obtain ⟨b', h1, h2, h3, h4, h5⟩ := ih (f + 1) (l + 1) ((b.set f (some v)).set l (some (el.moved v)))
      (by omega) (fun j a c' => by
        obtain ⟨w, hw⟩ := h j (by omega) (by omega)
        unfold Live
        rw [hget j]
        split
        · exact ⟨_, rfl⟩
        · split
          · exact ⟨_, rfl⟩
          · exact ⟨w, hw⟩)
    refine ⟨b', h1, by rw [h2]; simp, fun j a c' => ?_, fun j a c' => h4 j (by omega) (by omega), fun j hj => ?_⟩
    · by_cases e : j = f
      · subst e
        rw [h5 j (by omega), hget, if_neg (by omega), if_pos rfl, show j + (l - j) = l by omega, hv]
      · rw [h3 j (by omega) (by omega), hget, if_neg (by omega), if_neg (by omega),
          show j + (l + 1 - (f + 1)) = j + (l - f) by omega]
    · rw [h5 j (by omega), hget, if_neg (by omega), if_neg (by omega)]

theorem erase_spec (el : Elem α) (s : SV α) (xs : List α) (first last : Nat) (h : Good s xs)
    (h1 : first ≤ last) (h2 : last ≤ xs.length) :
    ∃ s', erase el s first last = some s' ∧ Good s' (xs.take first ++ xs.drop last) ∧ s'.cap = s.cap := by
  unfold erase
  cases hl : s.large with
  | some l =>
    have := h.heap hl
    subst this
    simp only [if_pos (show first ≤ last ∧ last ≤ l.length from ⟨h1, h2⟩)]
    exact ⟨_, rfl, good_heap _ _ _ h.sz, rfl⟩
  | none =>
    obtain ⟨hr, hs⟩ := h.inline hl
    have hrl := hr.1
    simp only
    by_cases e : first = last
    · subst e
      rw [if_pos rfl]
      exact ⟨s, rfl, by rw [List.take_append_drop]; exact h, rfl⟩
    · rw [if_neg e]
      obtain ⟨b, g1, g2, g3, g4, g5⟩ := moveDown_spec el (s.size - last) first last s.buf (by omega)
        (fun j a c => ⟨_, hr.live (by omega)⟩)
      obtain ⟨b2, k1, k2, k3⟩ := destroyLoop_spec (last - first) (first + (s.size - last)) b
        (fun j a c => g4 j (by omega) (by omega))
      simp only [g1, k1, Option.bind_eq_bind, Option.bind_some]
      refine ⟨_, rfl, ?_, by simp [SV.cap, k2, g2]⟩
      refine good_inline _ _ _ ⟨by rw [k2, g2]; simp; omega, fun j hj => ?_⟩ (by simp; omega)
      rw [k2, g2] at hj
      rw [k3 j]
      split
      · rw [List.getElem?_eq_none]; simp; omega
      · by_cases c1 : j < first
        · rw [g5 j (by omega), hr.2 j hj, List.getElem?_append_left (by simp; omega),
            List.getElem?_take_of_lt c1]
        · by_cases c2 : j < first + (s.size - last)
          · rw [g3 j (by omega) (by omega), hr.2 _ (by omega), List.getElem?_append_right (by simp; omega),
              List.getElem?_drop, List.length_take,
              show last + (j - min first xs.length) = j + (last - first) by omega]
          · rw [g5 j (by omega), hr.2 j hj, List.getElem?_eq_none (l := xs) (by omega),
              List.getElem?_eq_none]; simp; omega

/-- Shifting the last `k` of the `size` elements up by `n`. -/
theorem shiftLoop_spec (el : Elem α) (size n idx : Nat) (hself : n = 0 → ∀ v, el.selfMove v = v) (k : Nat) :
    ∀ (b : Buf α), idx + k ≤ size → idx + k + n ≤ b.length →
    (∀ j, j < idx + k → Live b j) → (∀ j, idx + k ≤ j → j < size → Live b j) →
    (∀ j, size ≤ j → j < idx + k + n → Raw b j) →
    ∃ b', shiftLoop el size n idx k b = some b' ∧ b'.length = b.length ∧
      (∀ j, idx + n ≤ j → j < idx + k + n → b'[j]? = b[j - n]?) ∧
      (∀ j, idx ≤ j → j < idx + n → j < size → Live b' j) ∧
      (∀ j, size ≤ j → j < idx + n → Raw b' j) ∧
      (∀ j, (j < idx ∨ idx + k + n ≤ j) → b'[j]? = b[j]?) := by
  induction k with
  | zero =>
    intro b h1 h2 h3 h4 h5
    exact ⟨b, rfl, rfl, fun j _ _ => by omega, fun j a c d => h4 j (by omega) (by omega),
      fun j a c => h5 j a (by omega), fun j _ => rfl⟩
  | succ k ih =>
    intro b h1 h2 h3 h4 h5
    obtain ⟨v, hv⟩ := h3 (idx + k) (by omega)
    have hjl : idx + k < b.length := (List.getElem?_eq_some_iff.1 hv).1
    -- the buffer after moving element `idx + k` to `idx + k + n`
    have hstep : ∃ b1, moveSlot el size b (idx + k + n) (idx + k) = some b1 ∧ b1.length = b.length ∧
        b1[idx + k + n]? = some (some v) ∧ Live b1 (idx + k) ∧
        (∀ j, j ≠ idx + k → j ≠ idx + k + n → b1[j]? = b[j]?) := by
      unfold moveSlot
      simp only [read_live b _ v hv, Option.bind_eq_bind, Option.bind_some]
      by_cases c1 : idx + k + n ≥ size
      · rw [if_pos c1]
        have hraw : Raw b (idx + k + n) := h5 _ c1 (by omega)
        have hlive : Live (b.set (idx + k + n) (some v)) (idx + k) :=
          live_set b _ _ _ ⟨v, hv⟩ (by omega) hraw.lt
        simp only [construct_raw _ _ _ hraw, Option.bind_some, assign_live _ _ _ hlive]
        refine ⟨_, rfl, by simp, ?_, ?_, fun j a c => ?_⟩
        · rw [get_set _ _ _ _ hlive.lt, if_neg (by omega), get_set _ _ _ _ hraw.lt, if_pos rfl]
        · exact ⟨_, by rw [get_set _ _ _ _ hlive.lt, if_pos rfl]⟩
        · rw [get_set _ _ _ _ hlive.lt, if_neg a, get_set _ _ _ _ hraw.lt, if_neg c]
      · rw [if_neg c1]
        by_cases c2 : idx + k + n = idx + k
        · rw [if_pos c2]
          have hn : n = 0 := by omega
          subst hn
          rw [hself rfl v]
          simp only [Nat.add_zero]
          refine ⟨_, assign_live _ _ _ ⟨v, hv⟩, by simp, ?_, ?_, fun j a _ => ?_⟩
          · rw [get_set _ _ _ _ hjl, if_pos rfl]
          · exact ⟨_, by rw [get_set _ _ _ _ hjl, if_pos rfl]⟩
          · rw [get_set _ _ _ _ hjl, if_neg a]
        · rw [if_neg c2]
          have hli : Live b (idx + k + n) := by
            by_cases c3 : idx + k + n < idx + (k + 1)
            · exact h3 _ (by omega)
            · exact h4 _ (by omega) (by omega)
          have hlive : Live (b.set (idx + k + n) (some v)) (idx + k) :=
            live_set b _ _ _ ⟨v, hv⟩ (by omega) hli.lt
          simp only [assign_live _ _ _ hli, Option.bind_some, assign_live _ _ _ hlive]
          refine ⟨_, rfl, by simp, ?_, ?_, fun j a c => ?_⟩
          · rw [get_set _ _ _ _ hlive.lt, if_neg (by omega), get_set _ _ _ _ hli.lt, if_pos rfl]
          · exact ⟨_, by rw [get_set _ _ _ _ hlive.lt, if_pos rfl]⟩
          · rw [get_set _ _ _ _ hlive.lt, if_neg a, get_set _ _ _ _ hli.lt, if_neg c]
    obtain ⟨b1, s1, s2, s3, s4, s5⟩ := hstep
    simp only [shiftLoop, s1, Option.bind_eq_bind, Option.bind_some]
    obtain ⟨b', g1, g2, g3, g4, g5, g6⟩ := ih b1 (by omega) (by omega)
      (fun j hj => by
        by_cases e : n = 0
        · obtain ⟨w, hw⟩ := h3 j (by omega)
          exact ⟨w, by rw [s5 j (by omega) (by omega), hw]⟩
        · obtain ⟨w, hw⟩ := h3 j (by omega)
          exact ⟨w, by rw [s5 j (by omega) (by omega), hw]⟩)
      (fun j a c => by
        by_cases e : j = idx + k
        · subst e; exact s4
        · by_cases e2 : j = idx + k + n
          · exact ⟨v, by rw [e2, s3]⟩
          · obtain ⟨w, hw⟩ := h4 j (by omega) c
            exact ⟨w, by rw [s5 j e e2, hw]⟩)
      (fun j a c => by
        unfold Raw
        rw [s5 j (by omega) (by omega)]; exact h5 j a (by omega))
    refine ⟨b', g1, by rw [g2, s2], fun j a c => ?_, g4, g5, fun j hj => ?_⟩
    · by_cases e : j = idx + k + n
      · subst e
        rw [g6 _ (by omega), s3, show idx + k + n - n = idx + k by omega, hv]
      · rw [g3 j a (by omega), s5 _ (by omega) (by omega)]
    · rw [g6 j (by omega), s5 j (by omega) (by omega)]

theorem fillLoop_spec (size : Nat) (vs : List α) : ∀ (p : Nat) (b : Buf α),
    (∀ j, p ≤ j → j < p + vs.length → j < size → Live b j) →
    (∀ j, p ≤ j → j < p + vs.length → size ≤ j → Raw b j) →
    ∃ b', fillLoop size p vs b = some b' ∧ b'.length = b.length ∧
      ∀ j, b'[j]? = if p ≤ j ∧ j < p + vs.length then some vs[j - p]? else b[j]? := by
  induction vs with
  | nil =>
    intro i b _ _
    exact ⟨b, rfl, rfl, fun j => by rw [if_neg (by simp)]⟩
  | cons v vs ih =>
    intro i b h h'
    simp only [List.length_cons] at h h' ⊢
    have hop : i < b.length ∧ fillSlot size b i v = some (b.set i (some v)) := by
      unfold fillSlot
      by_cases c : i ≥ size
      · rw [if_pos c]; exact op_construct _ _ _ (h' i (by omega) (by omega) c)
      · rw [if_neg c]; exact op_assign _ _ _ (h i (by omega) (by omega) (by omega))
    obtain ⟨hlt, hop⟩ := hop
    simp only [fillLoop, hop, Option.bind_eq_bind, Option.bind_some]
    obtain ⟨b', h1, h2, h3⟩ := ih (i + 1) (b.set i (some v))
      (fun j a1 a2 a3 => live_set b i j _ (h j (by omega) (by omega) a3) (by omega) hlt)
      (fun j a1 a2 a3 => raw_set b i j _ (h' j (by omega) (by omega) a3) (by omega) hlt)
    refine ⟨b', h1, by rw [h2, List.length_set], fun j => ?_⟩
    rw [h3 j, get_set b i j _ hlt]
    by_cases hj : j = i
    · subst hj; rw [if_neg (by omega), if_pos rfl, if_pos (by omega)]; simp
    · rw [if_neg hj]
      by_cases hj2 : i + 1 ≤ j ∧ j < i + 1 + vs.length
      · rw [if_pos hj2, if_pos (by omega), show j - i = (j - (i + 1)) + 1 by omega]; simp
      · rw [if_neg hj2, if_neg (by omega)]

theorem insert_spec (el : Elem α) (s : SV α) (xs vs : List α) (idx : Nat) (h : Good s xs)
    (hi : idx ≤ xs.length) (hself : vs = [] → ∀ v, el.selfMove v = v) :
    ∃ s', insert el s idx vs = some s' ∧ Good s' (xs.take idx ++ vs ++ xs.drop idx) ∧ s'.cap = s.cap := by
  obtain ⟨s1, h1, h2, h3, h4⟩ := maybeLarge_spec el s xs h (decide (s.size + vs.length > s.cap))
  unfold insert
  rw [h1, Option.bind_some]
  unfold insertCore
  cases hl : s1.large with
  | some l =>
    have := h2.heap hl
    subst this
    simp only [if_pos hi]
    exact ⟨_, rfl, good_heap _ _ _ h2.sz, h3⟩
  | none =>
    rcases h4 with ⟨_, _, h4⟩ | ⟨rfl, h4⟩
    · rw [hl] at h4; simp at h4
    · have hle : s1.size + vs.length ≤ s1.buf.length := by simpa [SV.cap] using h4 hl
      obtain ⟨hr, hs⟩ := h2.inline hl
      have hrl := hr.1
      obtain ⟨b, g1, g2, g3, g4, g5, g6⟩ := shiftLoop_spec el s1.size vs.length idx
        (fun e => hself (List.length_eq_zero_iff.1 e)) (s1.size - idx) s1.buf (by omega) (by omega)
        (fun j hj => ⟨_, hr.live (by omega)⟩) (fun j a c => ⟨_, hr.live (by omega)⟩)
        (fun j a c => hr.raw (by omega) (by omega))
      obtain ⟨b2, k1, k2, k3⟩ := fillLoop_spec s1.size vs idx b (fun j a c d => g4 j a c d)
        (fun j a c d => g5 j d c)
      simp only [g1, k1, Option.bind_eq_bind, Option.bind_some]
      refine ⟨_, rfl, ?_, by simp [SV.cap, k2, g2]⟩
      refine good_inline _ _ _ ⟨by rw [k2, g2]; simp; omega, fun j hj => ?_⟩ (by simp; omega)
      rw [k2, g2] at hj
      rw [k3 j]
      by_cases c1 : idx ≤ j ∧ j < idx + vs.length
      · rw [if_pos c1, List.getElem?_append_left (by simp; omega), List.getElem?_append_right (by simp; omega)]
        simp [List.length_take, Nat.min_eq_left hi]
      · rw [if_neg c1]
        by_cases c2 : j < idx
        · rw [g6 j (by omega), hr.2 j hj, List.append_assoc, List.getElem?_append_left (by simp; omega),
            List.getElem?_take_of_lt c2]
        · rw [List.getElem?_append_right (by simp; omega), List.getElem?_drop]
          simp only [List.length_append, List.length_take, Nat.min_eq_left hi]
          by_cases c3 : j < s1.size + vs.length
          · rw [g3 j (by omega) (by omega), hr.2 _ (by omega),
              show idx + (j - (idx + vs.length)) = j - vs.length by omega]
          · rw [g6 j (by omega), hr.2 j hj, List.getElem?_eq_none (l := xs) (by omega),
              List.getElem?_eq_none (l := xs) (by omega)]

/-! ### Observers -/

theorem len_spec (s : SV α) (xs : List α) (h : Good s xs) : s.len = xs.length := by
  unfold SV.len
  cases hl : s.large with
  | some l => rw [h.heap hl]
  | none => exact (h.inline hl).2

theorem at_spec (s : SV α) (xs : List α) (h : Good s xs) (i : Nat) : s.at i = xs[i]? := by
  unfold SV.at
  cases hl : s.large with
  | some l => simp only; rw [h.heap hl]
  | none =>
    obtain ⟨hr, hs⟩ := h.inline hl
    simp only
    by_cases hi : i < xs.length
    · rw [read_live _ _ _ (hr.live hi), List.getElem?_eq_getElem hi]
    · rw [List.getElem?_eq_none (by omega)]
      unfold read
      by_cases hb : i < s.buf.length
      · rw [hr.raw (by omega) hb]
      · rw [List.getElem?_eq_none (by omega)]

theorem isEmpty_spec (s : SV α) (xs : List α) (h : Good s xs) : s.isEmpty = xs.isEmpty := by
  unfold SV.isEmpty
  cases hl : s.large with
  | some l => simp only; rw [h.heap hl]
  | none =>
    obtain ⟨hr, hs⟩ := h.inline hl
    simp only
    rw [hs]
    cases xs <;> simp

end Verif.SmallVector
