import Verif.EnumSet.Model
import Verif.BitUtils.Lemmas

set_option linter.unusedSimpArgs false
set_option linter.unusedVariables false

namespace Verif.EnumSet
open Verif.BitUtils

/-- Buckets are strictly sorted, aligned and non-empty. -/
structure WF (bs : List Bucket) : Prop where
  sorted : bs.Pairwise (fun a b => a.start < b.start)
  aligned : ∀ b ∈ bs, b.start % 64 = 0
  nonempty : ∀ b ∈ bs, b.data ≠ 0#64

def Mem (bs : List Bucket) (v : Nat) : Prop :=
  ∃ b ∈ bs, b.start = bucketStart v ∧ b.data.getLsbD (v % 64) = true

/-- number of set bits -/
def pop (d : BitVec 64) : Nat := (List.range 64).countP (fun i => d.getLsbD i)

def card (bs : List Bucket) : Nat := (bs.map fun b => pop b.data).sum

structure Inv (s : ESet) : Prop where
  wf : WF s.buckets
  size : s.size = card s.buckets

theorem mask_bit (v k : Nat) (hk : k < 64) : (mask v).getLsbD k = decide (k = v % 64) := by
  unfold mask bucketOffset
  rw [one_shl_getLsbD]; simp [hk]

theorem and_mask (d : BitVec 64) (v : Nat) : ((d &&& mask v) != 0#64) = d.getLsbD (v % 64) :=
  and_one_shl_ne_zero d (v % 64) (Nat.mod_lt _ (by omega))

theorem start_ge (bs : List Bucket) (h : WF bs) : ∀ i (hi : i < bs.length), 64 * i ≤ bs[i].start := by
  intro i
  induction i with
  | zero => intro _; omega
  | succ i ih =>
    intro hi
    have h1 := ih (by omega)
    have h2 := List.pairwise_iff_getElem.mp h.sorted i (i + 1) (by omega) hi (by omega)
    have h3 := h.aligned _ (List.getElem_mem (show i < bs.length by omega))
    have h4 := h.aligned _ (List.getElem_mem hi)
    omega

/-- Result of the scan: everything before is below, everything from it on is not. -/
theorem findLoop_spec (bs : List Bucket) (h : WF bs) (w : Nat) : ∀ i, i < bs.length →
    (∀ j (hj : j < bs.length), i < j → w ≤ bs[j].start) →
    ∃ k, findLoop bs w i = some k ∧ k ≤ bs.length ∧
      (∀ j (hj : j < bs.length), j < k → bs[j].start < w) ∧
      (∀ j (hj : j < bs.length), k ≤ j → w ≤ bs[j].start) := by
  have mono : ∀ a b (ha : a < bs.length) (hb : b < bs.length), a < b → bs[a].start < bs[b].start :=
    fun a b ha hb hab => List.pairwise_iff_getElem.mp h.sorted a b ha hb hab
  intro i
  induction i with
  | zero =>
    intro hi hup
    simp only [findLoop, List.getElem?_eq_getElem hi]
    split
    · rename_i hge
      refine ⟨0, rfl, by omega, by intro j hj h0; omega, ?_⟩
      intro j hj _
      rcases Nat.eq_zero_or_pos j with rfl | hp
      · exact hge
      · exact hup j hj hp
    · rename_i hlt
      refine ⟨1, rfl, by omega, ?_, ?_⟩
      · intro j hj h1
        have : j = 0 := by omega
        subst this; omega
      · intro j hj h1; exact hup j hj (by omega)
  | succ i ih =>
    intro hi hup
    simp only [findLoop, List.getElem?_eq_getElem hi]
    split
    · rename_i hge
      apply ih (by omega)
      intro j hj hij
      by_cases hj' : j = i + 1
      · subst hj'; exact hge
      · exact hup j hj (by omega)
    · rename_i hlt
      refine ⟨i + 2, rfl, by omega, ?_, ?_⟩
      · intro j hj h1
        by_cases hj' : j = i + 1
        · subst hj'; omega
        · have := mono j (i + 1) hj hi (by omega)
          omega
      · intro j hj h1; exact hup j hj (by omega)

theorem findBucket_spec (bs : List Bucket) (h : WF bs) (v : Nat) :
    ∃ L R, bs = L ++ R ∧ findBucket bs v = some L.length ∧
      (∀ b ∈ L, b.start < bucketStart v) ∧ (∀ b ∈ R, bucketStart v ≤ b.start) := by
  by_cases h0 : bs.length = 0
  · have : bs = [] := by cases bs <;> simp_all
    subst this
    exact ⟨[], [], rfl, by simp [findBucket], by simp, by simp⟩
  · have := findLoop_spec bs h (bucketStart v) (min (bs.length - 1) (largestIndex v)) (by omega) (by
      intro j hj hij
      have := start_ge bs h j hj
      unfold bucketStart
      omega)
    obtain ⟨k, hk, hkl, h1, h2⟩ := this
    refine ⟨bs.take k, bs.drop k, (List.take_append_drop k bs).symm, ?_, ?_, ?_⟩
    · unfold findBucket
      rw [if_neg h0, hk, List.length_take, Nat.min_eq_left hkl]
    · intro b hb
      obtain ⟨j, hj, rfl⟩ := List.getElem_of_mem hb
      rw [List.getElem_take]
      rw [List.length_take] at hj
      exact h1 j (by omega) (by omega)
    · intro b hb
      obtain ⟨j, hj, rfl⟩ := List.getElem_of_mem hb
      rw [List.getElem_drop]
      rw [List.length_drop] at hj
      exact h2 (k + j) (by omega) (by omega)

theorem bucketStart_le (v : Nat) : bucketStart v ≤ v ∧ v < bucketStart v + 64 ∧
    bucketStart v % 64 = 0 ∧ v % 64 = v - bucketStart v := by
  unfold bucketStart largestIndex; omega

theorem pop_or_mask (d : BitVec 64) (v : Nat) (h : d.getLsbD (v % 64) = false) :
    pop (d ||| mask v) = pop d + 1 := by
  unfold pop
  apply countP_remove 64 (v % 64) _ _ (Nat.mod_lt _ (by omega))
  · rw [BitVec.getLsbD_or, mask_bit _ _ (Nat.mod_lt _ (by omega))]; simp
  · intro i
    rw [BitVec.getLsbD_or]
    by_cases hi : i < 64
    · rw [mask_bit _ _ hi]
      by_cases h2 : i = v % 64
      · rw [h2, h]; simp
      · simp [h2]
    · rw [BitVec.getLsbD_of_ge _ _ (by omega), BitVec.getLsbD_of_ge _ _ (by omega)]; simp

theorem bit_or_mask (d : BitVec 64) (v k : Nat) (hk : k < 64) :
    (d ||| mask v).getLsbD k = (d.getLsbD k || decide (k = v % 64)) := by
  rw [BitVec.getLsbD_or, mask_bit _ _ hk]

theorem bit_and_not_mask (d : BitVec 64) (v k : Nat) (hk : k < 64) :
    (d &&& ~~~ mask v).getLsbD k = (d.getLsbD k && decide (k ≠ v % 64)) := by
  rw [BitVec.getLsbD_and, BitVec.getLsbD_not, mask_bit _ _ hk]
  simp [hk]

theorem pop_and_not_mask (d : BitVec 64) (v : Nat) (h : d.getLsbD (v % 64) = true) :
    pop d = pop (d &&& ~~~ mask v) + 1 := by
  unfold pop
  apply countP_remove 64 (v % 64) _ _ (Nat.mod_lt _ (by omega)) h
  intro i
  by_cases hi : i < 64
  · rw [bit_and_not_mask _ _ _ hi]
  · rw [BitVec.getLsbD_of_ge _ _ (by omega), BitVec.getLsbD_of_ge _ _ (by omega)]; simp

theorem pop_mask (v : Nat) : pop (mask v) = 1 := by
  have := pop_or_mask 0#64 v (by simp)
  simpa [pop] using this

theorem pop_zero : pop 0#64 = 0 := by simp [pop]

theorem mask_ne_zero (v : Nat) : mask v ≠ 0#64 := by
  intro h
  have := pop_mask v
  rw [h, pop_zero] at this
  omega

theorem ne_zero_bit (d : BitVec 64) (h : d ≠ 0#64) : ∃ k, k < 64 ∧ d.getLsbD k = true := by
  obtain ⟨k, hk, hb, _⟩ := lowest d h
  exact ⟨k, hk, hb⟩

theorem pop_pos (d : BitVec 64) (k : Nat) (hk : k < 64) (h : d.getLsbD k = true) : 0 < pop d := by
  unfold pop
  rw [List.countP_pos_iff]
  exact ⟨k, List.mem_range.mpr hk, h⟩

theorem card_append (a b : List Bucket) : card (a ++ b) = card a + card b := by
  simp [card]

theorem card_cons (b : Bucket) (bs : List Bucket) : card (b :: bs) = pop b.data + card bs := by
  simp [card]

/-- Same set, different bucket at one place. -/
theorem mem_append_cons (L R : List Bucket) (b : Bucket) (x : Nat) :
    Mem (L ++ b :: R) x ↔ Mem L x ∨ (b.start = bucketStart x ∧ b.data.getLsbD (x % 64) = true) ∨ Mem R x := by
  unfold Mem; simp only [List.mem_append, List.mem_cons]
  constructor
  · rintro ⟨c, (h | rfl | h), hc⟩
    · exact .inl ⟨c, h, hc⟩
    · exact .inr (.inl hc)
    · exact .inr (.inr ⟨c, h, hc⟩)
  · rintro (⟨c, h, hc⟩ | hc | ⟨c, h, hc⟩)
    · exact ⟨c, .inl h, hc⟩
    · exact ⟨b, .inr (.inl rfl), hc⟩
    · exact ⟨c, .inr (.inr h), hc⟩

theorem mem_append (L R : List Bucket) (x : Nat) : Mem (L ++ R) x ↔ Mem L x ∨ Mem R x := by
  unfold Mem; simp only [List.mem_append]
  constructor
  · rintro ⟨c, (h | h), hc⟩
    · exact .inl ⟨c, h, hc⟩
    · exact .inr ⟨c, h, hc⟩
  · rintro (⟨c, h, hc⟩ | ⟨c, h, hc⟩)
    · exact ⟨c, .inl h, hc⟩
    · exact ⟨c, .inr h, hc⟩

theorem wf_append_cons (L R : List Bucket) (b : Bucket) :
    WF (L ++ b :: R) ↔ WF (L ++ R) ∧ (∀ c ∈ L, c.start < b.start) ∧ (∀ c ∈ R, b.start < c.start) ∧
      b.start % 64 = 0 ∧ b.data ≠ 0#64 := by
  constructor
  · rintro ⟨h1, h2, h3⟩
    rw [List.pairwise_append, List.pairwise_cons] at h1
    obtain ⟨p1, ⟨p2, p3⟩, p4⟩ := h1
    refine ⟨⟨?_, ?_, ?_⟩, ?_, p2, ?_, ?_⟩
    · rw [List.pairwise_append]
      exact ⟨p1, p3, fun a ha c hc => p4 a ha c (List.mem_cons_of_mem _ hc)⟩
    · intro c hc; apply h2; simp only [List.mem_append, List.mem_cons] at hc ⊢
      rcases hc with hc | hc <;> simp [hc]
    · intro c hc; apply h3; simp only [List.mem_append, List.mem_cons] at hc ⊢
      rcases hc with hc | hc <;> simp [hc]
    · intro c hc; exact p4 c hc b (by simp)
    · exact h2 b (by simp)
    · exact h3 b (by simp)
  · rintro ⟨⟨h1, h2, h3⟩, hL, hR, ha, hd⟩
    rw [List.pairwise_append] at h1
    obtain ⟨p1, p2, p3⟩ := h1
    refine ⟨?_, ?_, ?_⟩
    · rw [List.pairwise_append, List.pairwise_cons]
      refine ⟨p1, ⟨hR, p2⟩, ?_⟩
      intro a haL c hc
      rcases List.mem_cons.mp hc with rfl | hc
      · exact hL a haL
      · exact p3 a haL c hc
    · intro c hc
      simp only [List.mem_append, List.mem_cons] at hc
      rcases hc with hc | rfl | hc
      · exact h2 c (by simp [hc])
      · exact ha
      · exact h2 c (by simp [hc])
    · intro c hc
      simp only [List.mem_append, List.mem_cons] at hc
      rcases hc with hc | rfl | hc
      · exact h3 c (by simp [hc])
      · exact hd
      · exact h3 c (by simp [hc])

theorem not_mem_of_ne (bs : List Bucket) (v : Nat) (h : ∀ b ∈ bs, b.start ≠ bucketStart v) : ¬ Mem bs v := by
  rintro ⟨b, hb, hs, _⟩
  exact h b hb hs

theorem eq_bucketStart_iff (v x : Nat) (h : bucketStart v = bucketStart x) : x % 64 = v % 64 ↔ x = v := by
  have := bucketStart_le v
  have := bucketStart_le x
  omega

theorem insertBucketFor_split (L R : List Bucket) (v : Nat) (hL : ∀ b ∈ L, b.start < bucketStart v)
    (hR : ∀ b ∈ R, bucketStart v < b.start) :
    insertBucketFor (L ++ R) L.length v = some (L ++ ⟨mask v, bucketStart v⟩ :: R) := by
  unfold insertBucketFor
  have e : (L ++ R).insertIdx L.length ⟨1#64 <<< bucketOffset v, bucketStart v⟩
      = L ++ ⟨mask v, bucketStart v⟩ :: R := by
    clear hL hR
    induction L with
    | nil => simp [mask]
    | cons a L ih => simp [ih]
  rw [if_neg (by simp)]
  simp only [e]
  have hn : (match (L ++ (⟨mask v, bucketStart v⟩ :: R : List Bucket))[L.length + 1]? with
      | none => true
      | some n => decide (n.start > bucketStart v)) = true := by
    rw [List.getElem?_append_right (by omega)]
    rw [show L.length + 1 - L.length = 1 by omega, List.getElem?_cons_succ]
    cases R with
    | nil => rfl
    | cons r R => simp; exact hR r (by simp)
  have hp : (decide (L.length = 0) || (match (L ++ (⟨mask v, bucketStart v⟩ :: R : List Bucket))[L.length - 1]? with
      | none => false
      | some p => decide (p.start < bucketStart v))) = true := by
    by_cases h0 : L.length = 0
    · simp [h0]
    · rw [List.getElem?_append_left (by omega), List.getElem?_eq_getElem (by omega)]
      simp only [Bool.or_eq_true, decide_eq_true_eq]
      right; exact hL _ (List.getElem_mem _)
  exact if_pos (by rw [Bool.and_eq_true]; exact ⟨hn, hp⟩)

/-- `insert` on a well-formed set. -/
theorem insert_spec (s : ESet) (h : Inv s) (v : Nat) :
    ∃ s' bi off b, insert s v = some (s', (bi, off), b) ∧ Inv s' ∧
      (∀ x, Mem s'.buckets x ↔ Mem s.buckets x ∨ x = v) ∧
      (b = true ↔ ¬ Mem s.buckets v) ∧
      (∃ bk, s'.buckets[bi]? = some bk ∧ bk.start + off = v ∧ off < 64 ∧ bk.data.getLsbD off = true) := by
  obtain ⟨L, R, hs, hf, hL, hR⟩ := findBucket_spec s.buckets h.wf v
  obtain ⟨bs, size⟩ := s
  simp only at hs hf
  subst hs
  have hwf := h.wf
  have hsz : size = card (L ++ R) := h.size
  have hbs := bucketStart_le v
  -- the case of a new bucket
  have new : (∀ b ∈ R, bucketStart v < b.start) →
      Inv ⟨L ++ ⟨mask v, bucketStart v⟩ :: R, size + 1⟩ ∧
      (∀ x, Mem (L ++ ⟨mask v, bucketStart v⟩ :: R) x ↔ Mem (L ++ R) x ∨ x = v) ∧
      ¬ Mem (L ++ R) v := by
    intro hR'
    refine ⟨⟨?_, ?_⟩, ?_, ?_⟩
    · rw [wf_append_cons]
      exact ⟨hwf, hL, hR', hbs.2.2.1, mask_ne_zero v⟩
    · simp only [card_append, card_cons, pop_mask]
      rw [hsz, card_append]; omega
    · intro x
      rw [mem_append_cons, mem_append]
      have : ((⟨mask v, bucketStart v⟩ : Bucket).start = bucketStart x ∧
          (mask v).getLsbD (x % 64) = true) ↔ x = v := by
        simp only
        rw [mask_bit _ _ (Nat.mod_lt _ (by omega)), decide_eq_true_eq]
        constructor
        · rintro ⟨h1, h2⟩; exact (eq_bucketStart_iff v x h1).mp h2
        · rintro rfl; simp
      simp only at this
      rw [this]
      constructor
      · rintro (h | h | h) <;> simp [h]
      · rintro ((h | h) | h) <;> simp [h]
    · apply not_mem_of_ne
      intro b hb
      rcases List.mem_append.mp hb with hb | hb
      · have := hL b hb; omega
      · have := hR' b hb; omega
  unfold insert
  simp only [hf]
  cases R with
  | nil =>
    obtain ⟨n1, n2, n3⟩ := new (by simp)
    rw [List.getElem?_eq_none (by simp)]
    have := insertBucketFor_split L [] v hL (by simp)
    simp only [this, Option.map_some]
    refine ⟨_, _, _, _, rfl, n1, n2, by simp only [n3, not_false_eq_true], ?_⟩
    refine ⟨⟨mask v, bucketStart v⟩, by simp, ?_, Nat.mod_lt _ (by omega), ?_⟩
    · simp [bucketOffset]; omega
    · simp [bucketOffset, mask_bit _ _ (Nat.mod_lt v (show 64 > 0 by omega))]
  | cons r R =>
    rw [List.getElem?_append_right (by omega)]
    simp only [Nat.sub_self, List.getElem?_cons_zero]
    by_cases hst : r.start = bucketStart v
    · rw [if_neg (not_not_intro hst)]
      have hwf' := (wf_append_cons L R r).mp hwf
      by_cases hbit : r.data.getLsbD (v % 64) = true
      · have hne : ¬ (r.data &&& mask v) = 0 := by
          have := and_mask r.data v; rw [hbit] at this; simpa using this
        rw [if_pos hne]
        have hm : Mem (L ++ r :: R) v := (mem_append_cons L R r v).mpr (.inr (.inl ⟨hst, hbit⟩))
        refine ⟨_, _, _, _, rfl, h, ?_, by simp [hm], ?_⟩
        · intro x; constructor
          · exact .inl
          · rintro (h | rfl)
            · exact h
            · exact hm
        · refine ⟨r, by simp, ?_, Nat.mod_lt _ (by omega), hbit⟩
          simp [bucketOffset]; omega
      · have hbit : r.data.getLsbD (v % 64) = false := by simpa using hbit
        have he : (r.data &&& mask v) = 0 := by
          have := and_mask r.data v; rw [hbit] at this; simpa using this
        rw [if_neg (not_not_intro he)]
        have hset : (L ++ r :: R).set L.length { r with data := r.data ||| mask v }
            = L ++ { r with data := r.data ||| mask v } :: R := by
          rw [List.set_append_right _ _ (by omega)]; simp
        have hnm : ¬ Mem (L ++ r :: R) v := by
          rw [mem_append_cons]
          rintro (hm | hm | hm)
          · exact not_mem_of_ne L v (fun b hb => by have := hL b hb; omega) hm
          · rw [hbit] at hm; simp at hm
          · exact not_mem_of_ne R v (fun b hb => by have := hwf'.2.2.1 b hb; omega) hm
        rw [hset]
        refine ⟨_, _, _, _, rfl, ⟨?_, ?_⟩, ?_, by simp only [hnm, not_false_eq_true], ?_⟩
        · rw [wf_append_cons]
          refine ⟨hwf'.1, hwf'.2.1, hwf'.2.2.1, hwf'.2.2.2.1, ?_⟩
          intro h0
          have := bit_or_mask r.data v (v % 64) (Nat.mod_lt _ (by omega))
          simp only at h0
          rw [h0] at this; simp at this
        · simp only [card_append, card_cons, pop_or_mask _ _ hbit]
          rw [hsz, card_append, card_cons]; omega
        · intro x
          rw [mem_append_cons, mem_append_cons]
          have hx : x % 64 < 64 := Nat.mod_lt _ (by omega)
          simp only [bit_or_mask _ _ _ hx, Bool.or_eq_true, decide_eq_true_eq]
          have key : r.start = bucketStart x → (x % 64 = v % 64 ↔ x = v) := fun hh =>
            eq_bucketStart_iff v x (by omega)
          constructor
          · rintro (h | ⟨h1, h2 | h2⟩ | h)
            · simp [h]
            · left; right; left; exact ⟨h1, h2⟩
            · right; exact (key h1).mp h2
            · simp [h]
          · rintro ((h | h | h) | rfl)
            · simp [h]
            · right; left; exact ⟨h.1, .inl h.2⟩
            · simp [h]
            · right; left; exact ⟨hst, .inr rfl⟩
        · refine ⟨{ r with data := r.data ||| mask v }, by simp, ?_, Nat.mod_lt _ (by omega), ?_⟩
          · simp [bucketOffset]; omega
          · simp only [bucketOffset]
            rw [bit_or_mask _ _ _ (Nat.mod_lt v (show 64 > 0 by omega))]; simp
    · simp only [hst, ne_eq, not_false_eq_true, if_true]
      have hR' : ∀ b ∈ r :: R, bucketStart v < b.start := by
        intro b hb
        have h1 := hR r (by simp)
        rcases List.mem_cons.mp hb with rfl | hb
        · omega
        · have := (wf_append_cons L R r).mp hwf
          have := this.2.2.1 b hb
          omega
      obtain ⟨n1, n2, n3⟩ := new hR'
      rw [insertBucketFor_split L (r :: R) v hL hR']
      simp only [Option.map_some]
      refine ⟨_, _, _, _, rfl, n1, n2, by simp only [n3, not_false_eq_true], ?_⟩
      refine ⟨⟨mask v, bucketStart v⟩, by simp, ?_, Nat.mod_lt _ (by omega), ?_⟩
      · simp [bucketOffset]; omega
      · simp [bucketOffset, mask_bit _ _ (Nat.mod_lt v (show 64 > 0 by omega))]

theorem erase_spec (s : ESet) (h : Inv s) (v : Nat) :
    ∃ s' n, erase s v = some (s', n) ∧ Inv s' ∧
      (∀ x, Mem s'.buckets x ↔ Mem s.buckets x ∧ x ≠ v) ∧
      n ≤ 1 ∧ (n = 1 ↔ Mem s.buckets v) := by
  obtain ⟨L, R, hs, hf, hL, hR⟩ := findBucket_spec s.buckets h.wf v
  obtain ⟨bs, size⟩ := s
  simp only at hs hf
  subst hs
  have hwf := h.wf
  have hsz : size = card (L ++ R) := h.size
  have hbs := bucketStart_le v
  have hLm : ¬ Mem L v := not_mem_of_ne L v (fun b hb => by have := hL b hb; omega)
  unfold erase
  simp only [hf]
  have same : ¬ Mem (L ++ R) v → ∃ s' n, some ((⟨L ++ R, size⟩ : ESet), 0) = some (s', n) ∧ Inv s' ∧
      (∀ x, Mem s'.buckets x ↔ Mem (L ++ R) x ∧ x ≠ v) ∧ n ≤ 1 ∧ (n = 1 ↔ Mem (L ++ R) v) := by
    intro hn
    refine ⟨_, _, rfl, h, ?_, by omega, by simp [hn]⟩
    intro x; constructor
    · intro hx; exact ⟨hx, fun e => hn (e ▸ hx)⟩
    · exact fun hx => hx.1
  cases R with
  | nil =>
    rw [List.getElem?_eq_none (by simp)]
    simp only
    exact same (by rw [mem_append]; rintro (h | ⟨b, hb, _⟩); exact hLm h; simp at hb)
  | cons r R =>
    rw [List.getElem?_append_right (by omega)]
    simp only [Nat.sub_self, List.getElem?_cons_zero]
    have hwf' := (wf_append_cons L R r).mp hwf
    by_cases hst : r.start = bucketStart v
    · rw [if_neg (not_not_intro hst)]
      have hRm : ¬ Mem R v := not_mem_of_ne R v (fun b hb => by have := hwf'.2.2.1 b hb; omega)
      by_cases hbit : r.data.getLsbD (v % 64) = true
      · have hne : ¬ (r.data &&& mask v) = 0 := by
          have := and_mask r.data v; rw [hbit] at this; simpa using this
        have hm : Mem (L ++ r :: R) v := (mem_append_cons L R r v).mpr (.inr (.inl ⟨hst, hbit⟩))
        have hpop := pop_and_not_mask r.data v hbit
        have hs0 : ¬ size = 0 := by
          rw [hsz, card_append, card_cons]; omega
        simp only [hne, if_false, hs0]
        have hset : (L ++ r :: R).set L.length { r with data := r.data &&& ~~~ mask v }
            = L ++ { r with data := r.data &&& ~~~ mask v } :: R := by
          rw [List.set_append_right _ _ (by omega)]; simp
        rw [hset]
        have key : ∀ x, r.start = bucketStart x → (x % 64 = v % 64 ↔ x = v) := fun x hh =>
            eq_bucketStart_iff v x (by omega)
        by_cases hz : r.data &&& ~~~ mask v = 0
        · rw [if_pos hz]
          have her : (L ++ { r with data := r.data &&& ~~~ mask v } :: R).eraseIdx L.length = L ++ R := by
            rw [List.eraseIdx_append_of_length_le (by omega)]; simp
          rw [her]
          refine ⟨_, _, rfl, ⟨hwf'.1, ?_⟩, ?_, by omega, by simp [hm]⟩
          · simp only
            have : pop (r.data &&& ~~~ mask v) = 0 := by rw [hz]; exact pop_zero
            rw [hsz, card_append, card_cons, card_append]; omega
          · intro x
            simp only
            rw [mem_append_cons, mem_append]
            constructor
            · rintro (hx | hx)
              · exact ⟨.inl hx, fun e => hLm (e ▸ hx)⟩
              · exact ⟨.inr (.inr hx), fun e => hRm (e ▸ hx)⟩
            · rintro ⟨hx | ⟨h1, h2⟩ | hx, hxv⟩
              · exact .inl hx
              · exfalso
                have hx : x % 64 < 64 := Nat.mod_lt _ (by omega)
                have := bit_and_not_mask r.data v (x % 64) hx
                rw [hz, h2] at this
                simp at this
                exact hxv ((key x h1).mp this)
              · exact .inr hx
        · rw [if_neg hz]
          refine ⟨_, _, rfl, ⟨?_, ?_⟩, ?_, by omega, by simp [hm]⟩
          · rw [wf_append_cons]
            exact ⟨hwf'.1, hwf'.2.1, hwf'.2.2.1, hwf'.2.2.2.1, hz⟩
          · simp only
            rw [hsz, card_append, card_cons, card_append, card_cons]; simp only; omega
          · intro x
            have hx : x % 64 < 64 := Nat.mod_lt _ (by omega)
            simp only
            rw [mem_append_cons, mem_append_cons]
            simp only [bit_and_not_mask _ _ _ hx, Bool.and_eq_true, decide_eq_true_eq]
            constructor
            · rintro (hx | ⟨h1, h2, h3⟩ | hx)
              · exact ⟨.inl hx, fun e => hLm (e ▸ hx)⟩
              · exact ⟨.inr (.inl ⟨h1, h2⟩), fun e => h3 ((key x h1).mpr e)⟩
              · exact ⟨.inr (.inr hx), fun e => hRm (e ▸ hx)⟩
            · rintro ⟨hx | ⟨h1, h2⟩ | hx, hxv⟩
              · exact .inl hx
              · exact .inr (.inl ⟨h1, h2, fun e => hxv ((key x h1).mp e)⟩)
              · exact .inr (.inr hx)
      · have hbit : r.data.getLsbD (v % 64) = false := by simpa using hbit
        have he : (r.data &&& mask v) = 0 := by
          have := and_mask r.data v; rw [hbit] at this; simpa using this
        simp only [he, if_true]
        apply same
        rw [mem_append_cons]
        rintro (hm | hm | hm)
        · exact hLm hm
        · rw [hbit] at hm; simp at hm
        · exact hRm hm
    · simp only [hst, ne_eq, not_false_eq_true, if_true]
      apply same
      rw [mem_append_cons]
      rintro (hm | hm | hm)
      · exact hLm hm
      · exact hst hm.1
      · refine not_mem_of_ne R v (fun b hb => ?_) hm
        have := hwf'.2.2.1 b hb
        have := hR r (by simp)
        omega

theorem contains_spec (s : ESet) (h : WF s.buckets) (v : Nat) :
    ∃ b, contains s v = some b ∧ (b = true ↔ Mem s.buckets v) := by
  obtain ⟨L, R, hs, hf, hL, hR⟩ := findBucket_spec s.buckets h v
  have hLm : ¬ Mem L v := not_mem_of_ne L v (fun b hb => by have := hL b hb; omega)
  unfold contains
  rw [hf]
  simp only [hs]
  cases R with
  | nil =>
    rw [List.getElem?_eq_none (by simp)]
    refine ⟨_, rfl, ?_⟩
    simp [hLm]
  | cons r R =>
    rw [hs] at h
    have hwf' := (wf_append_cons L R r).mp h
    rw [List.getElem?_append_right (by omega)]
    simp only [Nat.sub_self, List.getElem?_cons_zero]
    rw [mem_append_cons]
    by_cases hst : r.start = bucketStart v
    · rw [if_neg (not_not_intro hst)]
      refine ⟨_, rfl, ?_⟩
      have hRm : ¬ Mem R v := not_mem_of_ne R v (fun b hb => by have := hwf'.2.2.1 b hb; omega)
      rw [show ((r.data &&& mask v) != 0) = r.data.getLsbD (v % 64) from and_mask r.data v]
      simp [hLm, hRm, hst]
    · simp only [hst, ne_eq, not_false_eq_true, if_true]
      refine ⟨_, rfl, ?_⟩
      have hRm : ¬ Mem R v := not_mem_of_ne R v (fun b hb => by
        have := hwf'.2.2.1 b hb
        have := hR r (by simp)
        omega)
      simp [hLm, hRm, hst]

end Verif.EnumSet
