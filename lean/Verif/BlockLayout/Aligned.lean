import Verif.BlockLayout.Sound
/-! # Lemmas: alignments of the parts of a block; runtime arrays -/
set_option linter.unusedSimpArgs false
set_option linter.unusedVariables false
namespace Verif.BlockLayout

/-! ## The alignments the validator computes are those of the specification -/

theorem round_pow {mode : Mode} {a : Nat} (h : Pow a) : ext16 mode a = round mode a := by
  unfold ext16 round
  split
  · obtain ⟨k, hk, rfl⟩ := h
    have : ∀ k : Fin 31, alignTo (2 ^ k.1) 16 = (2 ^ k.1 + 15) / 16 * 16 := by decide +kernel
    exact this ⟨k, by omega⟩
  · rfl

theorem vecAlign_eq {mode : Mode} {allow : Bool} {b n : Nat} (h : Width b) (hn : 1 ≤ n) :
    vecAlign mode false allow b n = vkVector mode b n := by
  have hw := width_le h
  unfold vecAlign vkVector
  by_cases hm : mode = .scalar
  · simp [hm]
  · simp only [hm, Bool.and_false, Bool.false_eq_true, or_self, if_false]
    have hc : n = 1 ∨ n = 2 ∨ 3 ≤ n := by omega
    unfold vecFactor w
    rcases hc with rfl | rfl | hc
    · simp; omega
    · simp; omega
    · have : (if n = 3 ∨ n > 4 then 4 else n) = 4 := by split <;> omega
      rw [this, if_neg (by omega), if_neg (by omega)]; omega

theorem matAlign_eq {mode : Mode} {relaxed : Bool} {mc : MC} {b r c : Nat} (h : Width b)
    (hr : r = 2 ∨ r = 3 ∨ r = 4) (hc : c = 2 ∨ c = 3 ∨ c = 4) :
    matAlign mode relaxed mc b r c = round mode (vkVector mode b (if mc.colMajor then r else c)) := by
  have hv : ∀ n, 1 ≤ n → vecAlign mode relaxed false b n = vkVector mode b n := by
    intro n hn
    rw [← vecAlign_eq (allow := false) h hn]; simp [vecAlign]
  unfold matAlign
  split
  · next hm =>
    subst hm; simp [round, vkVector]
  · next hm =>
    split
    · rw [hv _ (by omega), round_pow]
      rw [← hv _ (by omega)]
      exact (vecAlign_pow h (by omega)).1
    · have he : w (b * if c = 3 then 4 else c) = vkVector mode b c := by
        rw [← hv c (by omega)]
        simp only [vecAlign, hm, Bool.false_and, Bool.false_eq_true, or_self, if_false, vecFactor]
        rcases hc with rfl | rfl | rfl <;> simp
      rw [round_pow (width_mul h (by split <;> omega)).1, he]

theorem dvd_max_one {m : Nat} (h : 1 ≤ m) : max 1 m = m := by omega

theorem maxAlign_eq {mode : Mode} : ∀ {bs : List Nat} {a : Nat}, Pow a → (∀ b ∈ bs, Pow b) → bs ≠ [] →
    maxAlign mode a bs = round mode (max a (bs.foldr max 1))
  | [], a, _, _, h => absurd rfl h
  | [b], a, ha, hb, _ => by
    have hb0 := hb b (by simp)
    simp only [maxAlign, List.foldr]
    rw [round_pow (ha.max hb0)]
    congr 1
    have := hb0.pos
    omega
  | b :: c :: bs, a, ha, hb, _ => by
    have hb0 := hb b (by simp)
    have hm := ha.max hb0
    rw [maxAlign, maxAlign_eq (ext16_pow hm).1 (fun x hx => hb x (by simp [hx])) (by simp), round_pow hm]
    simp only [List.foldr]
    have h1 : ∀ M, round mode (max (round mode (max a b)) M) = round mode (max a (max b M)) := by
      intro M
      unfold round
      split <;> omega
    exact h1 _

theorem aligns_foldr {mode : Mode} : ∀ {infos : List Info} {tys : List Ty},
    (∀ (k : Nat) (i : Info) (t : Ty), infos[k]? = some i → tys[k]? = some t →
      align mode false i.mc true t = vkAlign mode i.mc t) →
    (aligns mode false infos tys).foldr max 1 = vkAligns mode infos tys
  | [], _, _ => by simp [aligns, vkAligns]
  | _ :: _, [], _ => by simp [aligns, vkAligns]
  | i :: is, t :: ts, h => by
    rw [aligns, vkAligns, List.foldr, h 0 i t rfl rfl,
      aligns_foldr fun k i' t' hi ht => h (k + 1) i' t' (by simpa using hi) (by simpa using ht)]

theorem vkAligns_pos {mode : Mode} : ∀ {infos : List Info} {tys : List Ty}, 1 ≤ vkAligns mode infos tys
  | [], _ => by simp [vkAligns]
  | _ :: _, [] => by simp [vkAligns]
  | i :: is, t :: ts => by
    rw [vkAligns]; have := vkAligns_pos (mode := mode) (infos := is) (tys := ts); omega

theorem align_vk {mode : Mode} (t : Ty) : ∀ {mc : MC} (allow : Bool), Fine mc t →
    align mode false mc allow t = vkAlign mode mc t := by
  induction t using Ty.ind with
  | scalar b => intro mc allow h; simp [align, vkAlign]
  | handle b a => intro mc allow h; simp [align, vkAlign]
  | vector b n =>
    intro mc allow h
    simp only [Fine] at h
    simp only [align, vkAlign]
    exact vecAlign_eq h.1 h.2.1
  | matrix b r c =>
    intro mc allow h
    simp only [Fine] at h
    simp only [align, vkAlign]
    exact matAlign_eq h.1 h.2.1 h.2.2.1
  | array n s el ih =>
    intro mc allow h
    simp only [Fine] at h
    simp only [align, vkAlign]
    rw [round_pow (align_pow el false h.2.2.2).1, ih false h.2.2.2]
  | rtarray s el ih => intro mc allow h; simp [Fine] at h
  | struct infos tys ih =>
    intro mc allow h
    simp only [Fine, fines_iff] at h
    simp only [align, vkAlign]
    by_cases he : tys = []
    · subst he
      cases infos <;> simp [aligns, maxAlign]
    · rw [if_neg he, maxAlign_eq ⟨0, by omega, rfl⟩, aligns_foldr, dvd_max_one vkAligns_pos]
      · exact fun k i t hi ht => ih t (List.mem_of_getElem? ht) true (h.2.2 k i t hi ht).2
      · intro a ha
        obtain ⟨k, i, t, hi, ht, rfl⟩ := aligns_mem.1 ha
        exact (align_pow t true (h.2.2 k i t hi ht).2).1
      · cases tys with
        | nil => exact absurd rfl he
        | cons t ts =>
          cases infos with
          | nil => simp at h
          | cons i is => simp [aligns]

/-! ## Parts -/

theorem sub_nil {mc : MC} {t : Ty} : sub mc t [] = some (0, mc, t) := by
  cases t <;> simp [sub]

theorem sub_array {mc : MC} {k s : Nat} {el : Ty} {i : Nat} {q : List Nat} {a : Nat} {mc' : MC} {t' : Ty}
    (h : sub mc (.array (some k) (some s) el) (i :: q) = some (a, mc', t')) :
    ∃ x, i < k ∧ sub mc el q = some (x, mc', t') ∧ a = i * s + x := by
  simp only [sub, Option.getD_some] at h
  split at h
  · next hi =>
    obtain ⟨⟨x, m, t⟩, hx, he⟩ := Option.map_eq_some_iff.1 h
    simp only [Prod.mk.injEq] at he
    obtain ⟨rfl, rfl, rfl⟩ := he
    exact ⟨x, hi, hx, rfl⟩
  · simp at h

theorem sub_rtarray {mc : MC} {s : Nat} {el : Ty} {i : Nat} {q : List Nat} {a : Nat} {mc' : MC} {t' : Ty}
    (h : sub mc (.rtarray (some s) el) (i :: q) = some (a, mc', t')) :
    ∃ x, sub mc el q = some (x, mc', t') ∧ a = i * s + x := by
  simp only [sub, Option.getD_some] at h
  obtain ⟨⟨x, m, t⟩, hx, he⟩ := Option.map_eq_some_iff.1 h
  simp only [Prod.mk.injEq] at he
  obtain ⟨rfl, rfl, rfl⟩ := he
  exact ⟨x, hx, rfl⟩

theorem sub_struct {mc : MC} {infos : List Info} {tys : List Ty} {a k : Nat} {q : List Nat} {mc' : MC} {t' : Ty}
    (h : sub mc (.struct infos tys) (k :: q) = some (a, mc', t')) :
    ∃ i t x, infos[k]? = some i ∧ tys[k]? = some t ∧ sub i.mc t q = some (x, mc', t') ∧ a = i.offset + x := by
  simp only [sub] at h
  obtain ⟨i, t, ⟨x, m, t1⟩, hi, ht, hx, he⟩ := subs_eq.1 h
  simp only [Prod.mk.injEq] at he
  obtain ⟨rfl, rfl, rfl⟩ := he
  exact ⟨i, t, x, hi, ht, hx, rfl⟩

/-- The parts of an object are aligned, relative to its start, to their alignment, which
divides that of the object. -/
def AlignedParts (mode : Mode) (relaxed : Bool) (mc : MC) (t : Ty) : Prop :=
  ∀ p a mc' t', sub mc t p = some (a, mc', t') →
    align mode relaxed mc' true t' ∣ a ∧ align mode relaxed mc' true t' ∣ align mode relaxed mc true t ∧ Fine mc' t'

theorem aligned_vector {mode : Mode} {relaxed : Bool} {mc : MC} {b n : Nat} (h : Fine mc (.vector b n)) :
    AlignedParts mode relaxed mc (.vector b n) := by
  intro p a mc' t' hp
  have hf := h
  simp only [Fine] at h
  unfold sub at hp
  split at hp
  · simp at hp; obtain ⟨rfl, rfl, rfl⟩ := hp
    exact ⟨Nat.dvd_zero _, Nat.dvd_refl _, hf⟩
  · next i =>
    split at hp
    · simp at hp; obtain ⟨rfl, rfl, rfl⟩ := hp
      simp only [align, Fine]
      exact ⟨Nat.dvd_mul_left _ _, (vecAlign_pow h.1 h.2.1).2, h.1⟩
    · simp at hp
  · simp at hp

theorem aligned_matrix {mode : Mode} {relaxed : Bool} {mc : MC} {b r c : Nat} (h : Fine mc (.matrix b r c))
    (h0 : mc.stride ≠ 0) (hc : checkMatrix mode relaxed mc b r c = true) :
    AlignedParts mode relaxed mc (.matrix b r c) := by
  intro p a mc' t' hp
  have hf := h
  simp only [Fine] at h
  have hm := matAlign_pow (mode := mode) (relaxed := relaxed) (mc := mc) h.1 h.2.1 h.2.2.1
  simp only [checkMatrix, h0, decide_false, Bool.false_or, Bool.and_eq_true] at hc
  have hs : b ∣ mc.stride := Nat.dvd_trans hm.2 (dvd_of_aligned hm.1.pos hc.1)
  unfold sub at hp
  split at hp
  · simp at hp; obtain ⟨rfl, rfl, rfl⟩ := hp
    exact ⟨Nat.dvd_zero _, Nat.dvd_refl _, hf⟩
  · next j i =>
    split at hp
    · simp only [Option.some.injEq, Prod.mk.injEq] at hp
      obtain ⟨rfl, rfl, rfl⟩ := hp
      simp only [align, Fine]
      refine ⟨?_, hm.2, h.1⟩
      split
      · exact Nat.dvd_add (Nat.dvd_trans hs (Nat.dvd_mul_left _ _)) (Nat.dvd_mul_left _ _)
      · exact Nat.dvd_add (Nat.dvd_trans hs (Nat.dvd_mul_left _ _)) (Nat.dvd_mul_left _ _)
    · simp at hp
  · simp at hp

theorem aligned_struct {mode : Mode} {relaxed : Bool} {mc : MC} {infos : List Info} {tys : List Ty}
    (hm : ∀ (k : Nat) (i : Info) (t : Ty), infos[k]? = some i → tys[k]? = some t → FineMember i t ∧
      align mode relaxed i.mc true t ∣ i.offset)
    {k : Nat} {q : List Nat} {a : Nat} {mc' : MC} {t' : Ty}
    (h : sub mc (.struct infos tys) (k :: q) = some (a, mc', t'))
    (ih : ∀ i t, infos[k]? = some i → tys[k]? = some t → ∀ x, sub i.mc t q = some (x, mc', t') →
      align mode relaxed mc' true t' ∣ x ∧ align mode relaxed mc' true t' ∣ align mode relaxed i.mc true t) :
    align mode relaxed mc' true t' ∣ a ∧
      align mode relaxed mc' true t' ∣ align mode relaxed mc true (.struct infos tys) := by
  obtain ⟨i, t, x, hi, ht, hx, rfl⟩ := sub_struct h
  obtain ⟨h1, h2⟩ := ih i t hi ht x hx
  exact ⟨Nat.dvd_add (Nat.dvd_trans h2 (hm k i t hi ht).2) h1,
    Nat.dvd_trans h2 (align_struct (fun k i t hi ht => (hm k i t hi ht).1) hi ht)⟩

theorem struct_facts {mode : Mode} {relaxed : Bool} {mc : MC} {inc : Nat} {infos : List Info} {tys : List Ty}
    (hc : check mode relaxed mc inc (.struct infos tys) = true) (hx : extents infos tys ≤ 2 ^ 31)
    (hf : ∀ (k : Nat) (i : Info) (t : Ty), infos[k]? = some i → tys[k]? = some t →
      i.offset < unknown ∧ Fine i.mc t) :
    (∀ (k : Nat) (i : Info) (t : Ty), infos[k]? = some i → tys[k]? = some t →
      (containsMatrix t = true → i.hasMatrix = true ∧ i.mc.stride ≠ 0) ∧
      align mode relaxed i.mc true t ∣ i.offset ∧ check mode relaxed i.mc (w (inc + i.offset)) t = true) ∧ True := by
    have hd : decorated infos tys = true := by rw [check, Bool.and_eq_true] at hc; exact hc.1
    obtain ⟨h1, _, _, _⟩ := struct_members hc fun k i t hi ht => ⟨(hf k i t hi ht).1,
      fineMember_of_fine (hf k i t hi ht).2, fun hct => by
        have := (geo t (hf k i t hi ht).2 (fun hm => ((decorated_get hd hi ht).2 hm).2) hct).size_le
        have := extents_ge hi ht
        omega⟩
    refine ⟨fun k i t hi ht => ?_, trivial⟩
    obtain ⟨_, h2, n, last, hmo⟩ := h1 k i t hi ht
    simp only [memberOk, Bool.and_eq_true] at hmo
    refine ⟨h2, ?_, by simpa [mkRec] using hmo.2⟩
    have : isAlignedTo i.offset (align mode relaxed i.mc true t) = true := by
      simpa [mkRec] using hmo.1.1.1.1.2
    exact dvd_of_aligned (align_pow t true (hf k i t hi ht).2).1.pos this

theorem aligned {mode : Mode} {relaxed : Bool} (t : Ty) : ∀ {mc : MC} {inc : Nat}, Fine mc t →
    (containsMatrix t = true → mc.stride ≠ 0) → check mode relaxed mc inc t = true →
    AlignedParts mode relaxed mc t := by
  induction t using Ty.ind with
  | scalar b =>
    intro mc inc hf _ _ p a mc' t' hp
    simp only [sub] at hp
    split at hp
    · simp at hp; obtain ⟨rfl, rfl, rfl⟩ := hp; exact ⟨Nat.dvd_zero _, Nat.dvd_refl _, hf⟩
    · simp at hp
  | handle b al =>
    intro mc inc hf _ _ p a mc' t' hp
    simp only [sub] at hp
    split at hp
    · simp at hp; obtain ⟨rfl, rfl, rfl⟩ := hp; exact ⟨Nat.dvd_zero _, Nat.dvd_refl _, hf⟩
    · simp at hp
  | vector b n => intro mc inc h _ _; exact aligned_vector h
  | matrix b r c =>
    intro mc inc h h0 hc
    rw [check] at hc
    exact aligned_matrix h (h0 rfl) hc
  | rtarray s el ih => intro mc inc h; simp [Fine] at h
  | array n s el ih =>
    intro mc inc hf h0 hc
    have h := hf
    simp only [Fine] at h
    obtain ⟨⟨k, rfl, hk⟩, ⟨s, rfl, hsu⟩, hx, hel⟩ := h
    rw [check] at hc
    obtain ⟨hs0, hal, hle, hch⟩ := checkArray_spec hsu hc
    have g := ih hel h0 hch
    intro p a mc' t' hp
    cases p with
    | nil =>
      rw [sub_nil] at hp
      simp at hp; obtain ⟨rfl, rfl, rfl⟩ := hp; exact ⟨Nat.dvd_zero _, Nat.dvd_refl _, hf⟩
    | cons i q =>
      obtain ⟨x, hi, hq, rfl⟩ := sub_array hp
      obtain ⟨g1, g2, g3⟩ := g q x mc' t' hq
      have e := align_pow (mode := mode) (relaxed := relaxed) el false hel
      have e2 := ext16_pow (mode := mode) e.1
      have hd := Nat.dvd_trans g2 (Nat.dvd_trans e.2 e2.2)
      refine ⟨?_, by rw [align]; exact hd, g3⟩
      exact Nat.dvd_add (Nat.dvd_trans (Nat.dvd_trans hd (dvd_of_aligned e2.1.pos hal)) (Nat.dvd_mul_left _ _)) g1
  | struct infos tys ih =>
    intro mc inc hF _ hc
    have h := hF
    simp only [Fine, fines_iff] at h
    obtain ⟨_, hx, hf⟩ := h
    obtain ⟨h1, _⟩ := struct_facts hc hx hf
    intro p a mc' t' hp
    cases p with
    | nil =>
      rw [sub_nil] at hp
      simp at hp; obtain ⟨rfl, rfl, rfl⟩ := hp; exact ⟨Nat.dvd_zero _, Nat.dvd_refl _, hF⟩
    | cons k q =>
      have hsub : ∀ {i t}, infos[k]? = some i → tys[k]? = some t → ∀ x, sub i.mc t q = some (x, mc', t') → _ :=
        fun {i t} hi ht x hx => ih t (List.mem_of_getElem? ht) (hf k i t hi ht).2
          (fun hm => ((h1 k i t hi ht).1 hm).2) (h1 k i t hi ht).2.2 q x mc' t' hx
      have hA := aligned_struct (mc := mc) (fun k i t hi ht => ⟨fineMember_of_fine (hf k i t hi ht).2,
        (h1 k i t hi ht).2.1⟩) hp (fun i t hi ht x hx => ⟨(hsub hi ht x hx).1, (hsub hi ht x hx).2.1⟩)
      obtain ⟨i, t, x, hi, ht, hx, rfl⟩ := sub_struct hp
      exact ⟨hA.1, hA.2, (hsub hi ht x hx).2.2⟩

end Verif.BlockLayout
