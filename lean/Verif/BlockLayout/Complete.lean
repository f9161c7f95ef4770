import Verif.BlockLayout.Block
/-! # Lemmas: layouts that follow the rules are accepted -/
set_option linter.unusedSimpArgs false
set_option linter.unusedVariables false
namespace Verif.BlockLayout

theorem aligned_of_dvd {v a : Nat} (ha : 0 < a) (h : a ∣ v) : isAlignedTo v a = true := by
  simp only [isAlignedTo, Nat.ne_of_gt ha, if_false, decide_eq_true_eq]
  exact Nat.mod_eq_zero_of_dvd h

theorem Pow.dvd_w {a x : Nat} (ha : Pow a) (h : a ∣ x) : a ∣ w x := by
  obtain ⟨k, hk, rfl⟩ := ha
  exact (Nat.dvd_mod_iff (Nat.pow_dvd_pow 2 (by omega))).2 h

theorem elements_of {f : Nat → Bool} {s inc n : Nat} (h : ∀ i, f (w (i * s + inc)) = true) :
    ∀ {fuel i : Nat} {seen : List Nat}, elements f s inc n fuel i seen = true
  | 0, _, _ => rfl
  | fuel + 1, i, seen => by
    rw [elements]
    split
    · split
      · rfl
      · rw [h i, elements_of h]; rfl
    · rfl

theorem checkArray_of {count s elSize align inc : Nat} {f : Nat → Bool} (hu : s < unknown) (h0 : s ≠ 0)
    (ha : isAlignedTo s align = true) (he : elSize ≤ s) (hf : ∀ i, f (w (i * s + inc)) = true) :
    checkArray count (some s) elSize align inc f = true := by
  simp only [checkArray]
  rw [if_neg h0, if_neg (Nat.ne_of_lt hu), ha, elements_of hf]
  simp; omega

/-- The relation in which sorted members must stand. -/
def Follows (mode : Mode) (a b : Rec) : Prop :=
  a.isRt = false ∧ a.offset < b.offset ∧ nextOffset mode a ≤ b.offset

theorem walk_of {mode : Mode} {inc : Nat} : ∀ {l : List Rec} {next : Nat}, (∀ m ∈ l, m.offset ≠ unknown) →
    (∀ m ∈ l, next ≤ m.offset) → l.Pairwise (Follows mode) →
    (∀ m ∈ l, isAlignedTo m.offset m.align = true ∧ isAlignedTo (w (m.offset + inc)) m.align = true ∧ m.child = true) →
    walk mode false inc next l = true
  | [], _, _, _, _, _ => rfl
  | m :: ms, next, hk, hn, hp, hm => by
    rw [List.pairwise_cons] at hp
    obtain ⟨h1, h2, h3⟩ := hm m (by simp)
    rw [walk, if_neg (hk m (by simp)), Bool.and_eq_true]
    refine ⟨?_, walk_of (fun x hx => hk x (by simp [hx])) (fun x hx => (hp.1 x hx).2.2) hp.2
      (fun x hx => hm x (by simp [hx]))⟩
    have hrt : (m.isRt && !ms.isEmpty) = false := by
      cases ms with
      | nil => simp
      | cons x xs => simp [(hp.1 x (by simp)).1]
    simp only [memberOk, hrt, h1, h2, h3]
    simp [hn m (by simp)]

theorem alignTo_eq {v k : Nat} (hk : k ≤ 31) (hv : v + 2 ^ k ≤ 2 ^ 32) :
    alignTo v (2 ^ k) = (v + 2 ^ k - 1) / 2 ^ k * 2 ^ k := by
  rw [alignTo_pow hk hv]
  have := Nat.div_add_mod (v + 2 ^ k - 1) (2 ^ k)
  rw [Nat.mul_comm] at this
  omega

theorem vk_member {mode : Mode} {i : Info} {t : Ty} (h : FineMember i t) :
    align mode false i.mc true t = vkAlign mode i.mc t := by
  rcases rt_fine h with ⟨s, el, rfl, _, hf⟩ | ⟨_, hf⟩
  · rw [align, vkAlign, round_pow (align_pow el false hf).1, align_vk el false hf]
  · exact align_vk t true hf

theorem next_eq {mode : Mode} {inc : Nat} {i : Info} {t : Ty} (hf : FineMember i t)
    (hsz : size i.mc t = extent i.mc t) (he : i.offset + extent i.mc t ≤ 2 ^ 31) :
    nextOffset mode (mkRec mode false i.mc inc i t) = memberEnd mode i t := by
  have hal := vk_member (mode := mode) hf
  have hpw := align_member (mode := mode) (relaxed := false) hf
  unfold nextOffset memberEnd
  simp only [mkRec, ite_self, hsz, hal]
  have e1 : w (extent i.mc t + i.offset) = i.offset + extent i.mc t := by
    rw [w_of_lt (by omega), Nat.add_comm]
  rw [e1]
  split
  · rw [hal] at hpw
    obtain ⟨e, hk, hp⟩ := hpw
    rw [hp]
    have : 2 ^ e ≤ 2 ^ 30 := Nat.pow_le_pow_right (by decide) hk
    exact alignTo_eq (by omega) (by omega)
  · rfl

theorem struct_of {mode : Mode} {mc : MC} {inc : Nat} {infos : List Info} {tys : List Ty}
    (hf : FineBlock infos tys) (hr : MemberRules mode infos tys)
    (hm : ∀ (k : Nat) (i : Info) (t : Ty), infos[k]? = some i → tys[k]? = some t →
      vkAlign mode i.mc t ∣ inc ∧ size i.mc t = extent i.mc t ∧ check mode false i.mc (w (inc + i.offset)) t = true) :
    check mode false mc (w inc) (.struct infos tys) = true := by
  obtain ⟨_, hx, hf⟩ := hf
  obtain ⟨hr1, hr2⟩ := hr
  have hd : decorated infos tys = true := decorated_of fun k i t hi ht =>
    ⟨(hr1 k i t hi ht).1, (hr1 k i t hi ht).2.1⟩
  rw [check, hd, Bool.true_and]
  have hw : ∀ o, w (w inc + o) = w (inc + o) := by intro o; unfold w; omega
  have hget : ∀ {k : Nat} {m : Rec}, (recs mode false mc (w inc) infos tys)[k]? = some m →
      ∃ i t, infos[k]? = some i ∧ tys[k]? = some t ∧ m = mkRec mode false i.mc (w inc) i t := by
    intro k m hk
    obtain ⟨i, t, hi, ht, rfl⟩ := recs_get.1 hk
    exact ⟨i, t, hi, ht, mkRec_own hd hi ht⟩
  have hmem : ∀ m ∈ recs mode false mc (w inc) infos tys, ∃ (k : Nat) (i : Info) (t : Ty), infos[k]? = some i ∧
      tys[k]? = some t ∧ m = mkRec mode false i.mc (w inc) i t := by
    intro m hm
    obtain ⟨k, hk⟩ := List.mem_iff_getElem?.1 hm
    obtain ⟨i, t, h⟩ := hget hk
    exact ⟨k, i, t, h⟩
  have hnext : ∀ {k : Nat} {i : Info} {t : Ty}, infos[k]? = some i → tys[k]? = some t →
      nextOffset mode (mkRec mode false i.mc (w inc) i t) = memberEnd mode i t := by
    intro k i t hi ht
    exact next_eq (hf k i t hi ht).2 (hm k i t hi ht).2.1 (Nat.le_trans (extents_ge hi ht) hx)
  have hpw : (recs mode false mc (w inc) infos tys).Pairwise fun a b => Follows mode a b ∨ Follows mode b a := by
    rw [List.pairwise_iff_getElem]
    intro x y hxl hyl hxy
    obtain ⟨i, t, hi, ht, he⟩ := hget (List.getElem?_eq_getElem hxl)
    obtain ⟨i', t', hi', ht', he'⟩ := hget (List.getElem?_eq_getElem hyl)
    rw [he, he']
    rcases hr2 x y i i' t t' hi ht hi' ht' (by omega) with ⟨h1, h2, h3⟩ | ⟨h1, h2, h3⟩
    · left
      exact ⟨by simpa [mkRec] using h1, by simpa [mkRec] using h2, by rw [hnext hi ht]; simpa [mkRec] using h3⟩
    · right
      exact ⟨by simpa [mkRec] using h1, by simpa [mkRec] using h2, by rw [hnext hi' ht']; simpa [mkRec] using h3⟩
  have hsp := (sortBy_perm (key := Rec.offset) (l := recs mode false mc (w inc) infos tys)).symm.pairwise hpw
    (fun h => h.symm)
  have hso := sortBy_sorted (key := Rec.offset) (l := recs mode false mc (w inc) infos tys)
  refine walk_of ?_ (fun _ _ => Nat.zero_le _) ((hsp.and hso).imp ?_) ?_
  · intro m hm
    obtain ⟨k, i, t, hi, ht, rfl⟩ := hmem m (sortBy_perm.mem_iff.1 hm)
    exact Nat.ne_of_lt (hf k i t hi ht).1
  · rintro a b ⟨h1 | h1, h2⟩
    · exact h1
    · have := h1.2.1; omega
  · intro m hm'
    obtain ⟨k, i, t, hi, ht, rfl⟩ := hmem m (sortBy_perm.mem_iff.1 hm')
    have hal := vk_member (mode := mode) (hf k i t hi ht).2
    have hpw := align_member (mode := mode) (relaxed := false) (hf k i t hi ht).2
    rw [hal] at hpw
    simp only [mkRec, ite_self, hal]
    refine ⟨aligned_of_dvd hpw.pos (hr1 k i t hi ht).2.2, aligned_of_dvd hpw.pos ?_, ?_⟩
    · rw [Nat.add_comm, hw]
      exact hpw.dvd_w (Nat.dvd_add (hm k i t hi ht).1 (hr1 k i t hi ht).2.2)
    · rw [hw]; exact (hm k i t hi ht).2.2

theorem rulesAll_get {mode : Mode} : ∀ {infos : List Info} {tys : List Ty}, RulesAll mode infos tys →
    ∀ {k : Nat} {i : Info} {t : Ty}, infos[k]? = some i → tys[k]? = some t → Rules mode i.mc t
  | [], _, _, k, i, t, hi, _ => by simp at hi
  | _ :: _, [], _, k, i, t, _, ht => by simp at ht
  | i :: is, t :: ts, h, k, i', t', hi, ht => by
    rw [RulesAll] at h
    cases k with
    | zero => simp at hi ht; subst hi; subst ht; exact h.1
    | succ k => exact rulesAll_get h.2 (k := k) (by simpa using hi) (by simpa using ht)

theorem complete {mode : Mode} (t : Ty) : ∀ {mc : MC} {inc : Nat}, Fine mc t →
    (containsMatrix t = true → mc.stride ≠ 0) → Rules mode mc t → vkAlign mode mc t ∣ inc →
    check mode false mc (w inc) t = true := by
  induction t using Ty.ind with
  | scalar b => intros; simp [check]
  | handle b a => intros; simp [check]
  | vector b n => intros; simp [check]
  | matrix b r c =>
    intro mc inc h h0 hr _
    simp only [Fine] at h
    simp only [Rules] at hr
    have hp := (matAlign_pow (mode := mode) (relaxed := false) (mc := mc) h.1 h.2.1 h.2.2.1).1
    rw [check, checkMatrix, Bool.or_eq_true, Bool.and_eq_true]
    right
    refine ⟨aligned_of_dvd hp.pos ?_, ?_⟩
    · rw [matAlign_eq h.1 h.2.1 h.2.2.1]; simpa [vkAlign] using hr.1
    · have hb := width_le h.1
      have h2 := hr.2
      by_cases hc : mc.colMajor = true
      · simp only [hc, if_true] at h2 ⊢
        rw [w_of_lt (small_mul hb (by omega)), Nat.mul_comm]
        simpa using h2
      · simp only [hc, if_false, Bool.false_eq_true] at h2 ⊢
        rw [w_of_lt (small_mul hb (by omega)), Nat.mul_comm]
        simpa using h2
  | rtarray s el ih => intro mc inc h; simp [Fine] at h
  | array n s el ih =>
    intro mc inc hf h0 hr hi
    simp only [Fine] at hf
    obtain ⟨⟨k, rfl, hk⟩, ⟨s, rfl, hsu⟩, hx, hel⟩ := hf
    simp only [Rules, Option.getD_some] at hr
    obtain ⟨hs0, hal, hle, hrel⟩ := hr
    have hpa := align_pow (mode := mode) (relaxed := false) el false hel
    have hp := ext16_pow (mode := mode) hpa.1
    have hva : ext16 mode (align mode false mc false el) = vkAlign mode mc (.array (some k) (some s) el) := by
      rw [vkAlign, round_pow hpa.1, align_vk el false hel]
    have hdv : vkAlign mode mc el ∣ vkAlign mode mc (.array (some k) (some s) el) := by
      rw [← hva, ← align_vk el false hel]; exact hp.2
    have hch : ∀ i, check mode false mc (w (i * s + w inc)) el = true := by
      intro i
      have : w (i * s + w inc) = w (i * s + inc) := by unfold w; omega
      rw [this]
      exact ih hel h0 hrel (Nat.dvd_add (Nat.dvd_trans (Nat.dvd_trans hdv hal) (Nat.dvd_mul_left _ _))
        (Nat.dvd_trans hdv hi))
    have hg := geo el hel h0 (hch 0)
    rw [check]
    refine checkArray_of hsu hs0 (aligned_of_dvd hp.1.pos (by rw [hva]; exact hal)) (by rw [hg.size_eq]; exact hle) hch
  | struct infos tys ih =>
    intro mc inc hF _ hr hi
    have hfb := fineBlock_of_fine hF
    have hF' := hF
    simp only [Fine, fines_iff] at hF'
    simp only [Rules] at hr
    refine struct_of hfb hr.1 fun k i t hik ht => ?_
    have hft := (hF'.2.2 k i t hik ht).2
    have hdv : vkAlign mode i.mc t ∣ inc := by
      refine Nat.dvd_trans ?_ hi
      rw [← align_vk _ true hF, ← align_vk t true hft]
      exact align_struct (fun k i t hi ht => (hfb.2.2 k i t hi ht).2) hik ht
    have h0 : containsMatrix t = true → i.mc.stride ≠ 0 := fun hm => ((hr.1.1 k i t hik ht).2.1 hm).2
    have hch := ih t (List.mem_of_getElem? ht) hft h0 (rulesAll_get hr.2 hik ht)
      (Nat.dvd_add hdv (hr.1.1 k i t hik ht).2.2)
    exact ⟨hdv, (geo t hft h0 hch).size_eq, hch⟩

theorem block_complete {mode : Mode} {mc : MC} {infos : List Info} {tys : List Ty} (hf : FineBlock infos tys)
    (hr : Rules mode mc (.struct infos tys)) : check mode false mc 0 (.struct infos tys) = true := by
  simp only [Rules] at hr
  have h00 : (0 : Nat) = w 0 := rfl
  rw [h00]
  refine struct_of hf hr.1 fun k i t hik ht => ?_
  have h0 : containsMatrix t = true → i.mc.stride ≠ 0 := fun hm => ((hr.1.1 k i t hik ht).2.1 hm).2
  have hrt := rulesAll_get hr.2 hik ht
  have hoff := (hr.1.1 k i t hik ht).2.2
  refine ⟨Nat.dvd_zero _, ?_⟩
  rw [Nat.zero_add]
  rcases rt_fine (hf.2.2 k i t hik ht).2 with ⟨s, el, rfl, hsu, hel⟩ | ⟨_, hft⟩
  · refine ⟨by simp [size, extent], ?_⟩
    simp only [Rules, Option.getD_some] at hrt
    obtain ⟨hs0, hal, hle, hrel⟩ := hrt
    have hpa := align_pow (mode := mode) (relaxed := false) el false hel
    have hp := ext16_pow (mode := mode) hpa.1
    have hva : ext16 mode (align mode false i.mc false el) = vkAlign mode i.mc (.rtarray (some s) el) := by
      rw [vkAlign, round_pow hpa.1, align_vk el false hel]
    have hdv : vkAlign mode i.mc el ∣ vkAlign mode i.mc (.rtarray (some s) el) := by
      rw [← hva, ← align_vk el false hel]; exact hp.2
    have hch : ∀ j, check mode false i.mc (w (j * s + w i.offset)) el = true := by
      intro j
      have : w (j * s + w i.offset) = w (j * s + i.offset) := by unfold w; omega
      rw [this]
      exact complete el hel h0 hrel (Nat.dvd_add (Nat.dvd_trans (Nat.dvd_trans hdv hal) (Nat.dvd_mul_left _ _))
        (Nat.dvd_trans hdv hoff))
    rw [check]
    exact checkArray_of hsu hs0 (aligned_of_dvd hp.1.pos (by rw [hva]; exact hal))
      (by rw [(geo el hel h0 (hch 0)).size_eq]; exact hle) hch
  · have hch := complete t hft h0 hrt hoff
    exact ⟨(geo t hft h0 hch).size_eq, hch⟩

/-! ## Accepted layouts follow the rules -/

theorem solids_mem : ∀ {tys : List Ty}, Solids tys → ∀ t ∈ tys, Solid t
  | [], _, _, h => by simp at h
  | t :: ts, h, x, hx => by
    rw [Solids] at h
    rcases List.mem_cons.1 hx with rfl | hx
    · exact h.1
    · exact solids_mem h.2 x hx

theorem memberRules_of {mode : Mode} {mc : MC} {inc : Nat} {infos : List Info} {tys : List Ty}
    (hf : FineBlock infos tys) (hc : check mode false mc inc (.struct infos tys) = true)
    (hm : ∀ (k : Nat) (i : Info) (t : Ty), infos[k]? = some i → tys[k]? = some t → isRt t = false →
      size i.mc t = extent i.mc t ∧ 0 < extent i.mc t) : MemberRules mode infos tys := by
  obtain ⟨h1, h2⟩ := block_members hf hc
  have hd : decorated infos tys = true := by rw [check, Bool.and_eq_true] at hc; exact hc.1
  refine ⟨fun k i t hi ht => ?_, fun k k' i i' t t' hi ht hi' ht' hne => ?_⟩
  · obtain ⟨g1, g2, _, _⟩ := h1 k i t hi ht
    rw [vk_member (hf.2.2 k i t hi ht).2] at g2
    exact ⟨(decorated_get hd hi ht).1, g1, g2⟩
  · rcases h2 k k' i i' t t' hi ht hi' ht' hne with ⟨e1, e2, e3⟩ | ⟨e1, e2, e3⟩
    · obtain ⟨m1, m2⟩ := hm k i t hi ht e1
      rw [next_eq (hf.2.2 k i t hi ht).2 m1 (Nat.le_trans (extents_ge hi ht) hf.2.1)] at e3
      exact .inl ⟨e1, by omega, e3⟩
    · obtain ⟨m1, m2⟩ := hm k' i' t' hi' ht' e1
      rw [next_eq (hf.2.2 k' i' t' hi' ht').2 m1 (Nat.le_trans (extents_ge hi' ht') hf.2.1)] at e3
      exact .inr ⟨e1, by omega, e3⟩

theorem rulesAll_of {mode : Mode} : ∀ {infos : List Info} {tys : List Ty},
    (∀ (k : Nat) (i : Info) (t : Ty), infos[k]? = some i → tys[k]? = some t → Rules mode i.mc t) →
    RulesAll mode infos tys
  | [], _, _ => by simp [RulesAll]
  | _ :: _, [], _ => by simp [RulesAll]
  | i :: is, t :: ts, h => by
    rw [RulesAll]
    exact ⟨h 0 i t rfl rfl, rulesAll_of fun k i' t' hi ht => h (k + 1) i' t' (by simpa using hi) (by simpa using ht)⟩

theorem rules_of {mode : Mode} (t : Ty) : ∀ {mc : MC} {inc : Nat}, Fine mc t →
    (containsMatrix t = true → mc.stride ≠ 0) → Solid t → check mode false mc inc t = true →
    Rules mode mc t ∧ 0 < extent mc t := by
  induction t using Ty.ind with
  | scalar b => intro mc inc h _ _ _; simp only [extent, Rules]; exact ⟨trivial, (Width.pow h).pos⟩
  | handle b a => intro mc inc h _ hs _; simpa [extent, Solid, Rules] using hs
  | vector b n =>
    intro mc inc h _ _ _
    simp only [Fine] at h
    simp only [extent, Rules]
    exact ⟨trivial, Nat.mul_pos h.1.pow.pos h.2.1⟩
  | matrix b r c =>
    intro mc inc h h0 _ hc
    simp only [Fine] at h
    have h0 := h0 rfl
    have hb := h.1.pow.pos
    have hb8 := width_le h.1
    have hp := (matAlign_pow (mode := mode) (relaxed := false) (mc := mc) h.1 h.2.1 h.2.2.1).1
    rw [check] at hc
    simp only [checkMatrix, h0, decide_false, Bool.false_or, Bool.and_eq_true] at hc
    refine ⟨?_, ?_⟩
    · simp only [Rules]
      refine ⟨?_, ?_⟩
      · have := dvd_of_aligned hp.pos hc.1
        rwa [matAlign_eq h.1 h.2.1 h.2.2.1] at this
      · have h2 := hc.2
        by_cases hcm : mc.colMajor = true
        · simp only [hcm, if_true, w_of_lt (small_mul hb8 (show r ≤ 4 by omega))] at h2 ⊢
          rw [Nat.mul_comm]; simpa using h2
        · simp only [hcm, if_false, Bool.false_eq_true, w_of_lt (small_mul hb8 (show c ≤ 4 by omega))] at h2 ⊢
          rw [Nat.mul_comm]; simpa using h2
    · simp only [extent]
      split
      · exact Nat.mul_pos (by omega) (by omega)
      · have : 0 < c * b := Nat.mul_pos (by omega) hb
        omega
  | array n s el ih =>
    intro mc inc hf h0 hs hc
    simp only [Fine] at hf
    obtain ⟨⟨k, rfl, hk⟩, ⟨s, rfl, hsu⟩, hx, hel⟩ := hf
    rw [check] at hc
    obtain ⟨hs0, hal, hle, hch⟩ := checkArray_spec hsu hc
    obtain ⟨hr, hpos⟩ := ih hel h0 (by simpa [Solid] using hs) hch
    have hpa := align_pow (mode := mode) (relaxed := false) el false hel
    have hp := ext16_pow (mode := mode) hpa.1
    have hal := dvd_of_aligned hp.1.pos hal
    rw [round_pow hpa.1, align_vk el false hel] at hal
    rw [(geo el hel h0 hch).size_eq] at hle
    simp only [Rules, extent, Option.getD_some, vkAlign]
    exact ⟨⟨hs0, hal, hle, hr⟩, by omega⟩
  | rtarray s el ih => intro mc inc h; simp [Fine] at h
  | struct infos tys ih =>
    intro mc inc hF _ hs hc
    have hfb := fineBlock_of_fine hF
    have hF' := hF
    simp only [Fine, fines_iff] at hF'
    simp only [Solid] at hs
    obtain ⟨h1, _⟩ := block_members hfb hc
    have hsub : ∀ (k : Nat) (i : Info) (t : Ty), infos[k]? = some i → tys[k]? = some t →
        (Rules mode i.mc t ∧ 0 < extent i.mc t) ∧ size i.mc t = extent i.mc t := by
      intro k i t hi ht
      obtain ⟨g1, _, g3, _⟩ := h1 k i t hi ht
      have hft := (hF'.2.2 k i t hi ht).2
      exact ⟨ih t (List.mem_of_getElem? ht) hft (fun hm => (g1 hm).2)
        (solids_mem hs.2 t (List.mem_of_getElem? ht)) g3, (geo t hft (fun hm => (g1 hm).2) g3).size_eq⟩
    refine ⟨?_, ?_⟩
    · simp only [Rules]
      exact ⟨memberRules_of hfb hc fun k i t hi ht _ => ⟨(hsub k i t hi ht).2, (hsub k i t hi ht).1.2⟩,
        rulesAll_of fun k i t hi ht => (hsub k i t hi ht).1.1⟩
    · simp only [extent]
      cases tys with
      | nil => exact absurd rfl hs.1
      | cons t ts =>
        cases infos with
        | nil => simp at hF'
        | cons i is =>
          have := (hsub 0 i t rfl rfl).1.2
          have := extents_ge (infos := i :: is) (tys := t :: ts) (k := 0) rfl rfl
          omega

theorem block_rules {mode : Mode} {mc : MC} {inc : Nat} {infos : List Info} {tys : List Ty} (hf : FineBlock infos tys)
    (hs : ∀ t ∈ tys, Solid t) (hc : check mode false mc inc (.struct infos tys) = true) :
    Rules mode mc (.struct infos tys) := by
  obtain ⟨h1, _⟩ := block_members hf hc
  simp only [Rules]
  refine ⟨memberRules_of hf hc fun k i t hi ht hr => ?_, rulesAll_of fun k i t hi ht => ?_⟩
  · obtain ⟨g1, _, g3, _⟩ := h1 k i t hi ht
    rcases rt_fine (hf.2.2 k i t hi ht).2 with ⟨s, el, rfl, hsu, hel⟩ | ⟨_, hft⟩
    · simp [isRt] at hr
    · exact ⟨(geo t hft (fun hm => (g1 hm).2) g3).size_eq,
        (rules_of t hft (fun hm => (g1 hm).2) (hs t (List.mem_of_getElem? ht)) g3).2⟩
  · obtain ⟨g1, _, g3, _⟩ := h1 k i t hi ht
    have hst := hs t (List.mem_of_getElem? ht)
    rcases rt_fine (hf.2.2 k i t hi ht).2 with ⟨s, el, rfl, hsu, hel⟩ | ⟨_, hft⟩
    · rw [check] at g3
      obtain ⟨hs0, hal, hle, hch⟩ := checkArray_spec hsu g3
      have h0 : containsMatrix el = true → i.mc.stride ≠ 0 := fun hm => (g1 hm).2
      have hpa := align_pow (mode := mode) (relaxed := false) el false hel
      have hp := ext16_pow (mode := mode) hpa.1
      have hal := dvd_of_aligned hp.1.pos hal
      rw [round_pow hpa.1, align_vk el false hel] at hal
      rw [(geo el hel h0 hch).size_eq] at hle
      simp only [Rules, Option.getD_some, vkAlign]
      exact ⟨hs0, hal, hle, (rules_of el hel h0 (by simpa [Solid] using hst) hch).1⟩
    · exact (rules_of t hft (fun hm => (g1 hm).2) hst g3).1

end Verif.BlockLayout
