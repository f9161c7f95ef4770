import Verif.BlockLayout.Aligned
/-! # Lemmas: blocks with a runtime array at the end; straddling -/
set_option linter.unusedSimpArgs false
set_option linter.unusedVariables false
namespace Verif.BlockLayout

theorem rt_fine {i : Info} {t : Ty} (h : FineMember i t) :
    (∃ s el, t = .rtarray (some s) el ∧ s < unknown ∧ Fine i.mc el) ∨ (isRt t = false ∧ Fine i.mc t) := by
  cases t with
  | rtarray s el => obtain ⟨⟨k, rfl, hk⟩, hf⟩ := h; exact .inl ⟨k, el, rfl, hk, hf⟩
  | _ => exact .inr ⟨rfl, h⟩

/-- The members of an accepted block. -/
theorem block_members {mode : Mode} {relaxed : Bool} {mc : MC} {inc : Nat} {infos : List Info} {tys : List Ty}
    (hf : FineBlock infos tys) (hc : check mode relaxed mc inc (.struct infos tys) = true) :
    (∀ (k : Nat) (i : Info) (t : Ty), infos[k]? = some i → tys[k]? = some t →
      (containsMatrix t = true → i.hasMatrix = true ∧ i.mc.stride ≠ 0) ∧
      align mode relaxed i.mc true t ∣ i.offset ∧ check mode relaxed i.mc (w (inc + i.offset)) t = true ∧
      (mode ≠ .scalar → relaxed = true → isVec t = true →
        improperStraddle (w (inc + i.offset)) (size i.mc t) = false)) ∧
    (∀ (k k' : Nat) (i i' : Info) (t t' : Ty), infos[k]? = some i → tys[k]? = some t → infos[k']? = some i' →
      tys[k']? = some t' → k ≠ k' →
        (isRt t = false ∧ i.offset + size i.mc t ≤ i'.offset ∧
          nextOffset mode (mkRec mode relaxed i.mc inc i t) ≤ i'.offset) ∨
        (isRt t' = false ∧ i'.offset + size i'.mc t' ≤ i.offset ∧
          nextOffset mode (mkRec mode relaxed i'.mc inc i' t') ≤ i.offset)) := by
  obtain ⟨_, hx, hf⟩ := hf
  have hd : decorated infos tys = true := by rw [check, Bool.and_eq_true] at hc; exact hc.1
  obtain ⟨h1, h2, _, _⟩ := struct_members hc fun k i t hi ht => ⟨(hf k i t hi ht).1, (hf k i t hi ht).2, fun hct => by
    have he := extents_ge hi ht
    rcases rt_fine (hf k i t hi ht).2 with ⟨s, el, rfl, _⟩ | ⟨_, hft⟩
    · simp only [size]; omega
    · have := (geo t hft (fun hm => ((decorated_get hd hi ht).2 hm).2) hct).size_le
      omega⟩
  refine ⟨fun k i t hi ht => ?_, h2⟩
  obtain ⟨_, h2, n, last, hmo⟩ := h1 k i t hi ht
  simp only [memberOk, Bool.and_eq_true] at hmo
  refine ⟨h2, ?_, by simpa [mkRec] using hmo.2, ?_⟩
  · have : isAlignedTo i.offset (align mode relaxed i.mc true t) = true := by
      simpa [mkRec] using hmo.1.1.1.1.2
    exact dvd_of_aligned (align_member (hf k i t hi ht).2).pos this
  · intro hm hr hv
    subst hr
    have := hmo.1.2
    simpa [mkRec, hm, hv] using this

theorem fineBlock_of_fine {mc : MC} {infos : List Info} {tys : List Ty} (h : Fine mc (.struct infos tys)) :
    FineBlock infos tys := by
  simp only [Fine, fines_iff] at h
  exact ⟨h.1, h.2.1, fun k i t hi ht => ⟨(h.2.2 k i t hi ht).1, fineMember_of_fine (h.2.2 k i t hi ht).2⟩⟩

theorem rt_facts {mode : Mode} {relaxed : Bool} {mc : MC} {inc s : Nat} {el : Ty} (hs : s < unknown)
    (hf : Fine mc el) (hm : containsMatrix el = true → mc.stride ≠ 0)
    (hc : check mode relaxed mc inc (.rtarray (some s) el) = true) :
    Geo mc el ∧ size mc el ≤ s ∧ align mode relaxed mc true (.rtarray (some s) el) ∣ s ∧
      AlignedParts mode relaxed mc el := by
  rw [check] at hc
  obtain ⟨hs0, hal, hle, hch⟩ := checkArray_spec hs hc
  refine ⟨geo el hf hm hch, hle, ?_, aligned el hf hm hch⟩
  rw [align]
  exact dvd_of_aligned (ext16_pow (align_pow el false hf).1).1.pos hal

theorem sub_rtarray_leaf {mc : MC} {s : Nat} {el : Ty} {n a : Nat} {p : List Nat} {mc' : MC} {t' : Ty}
    (h : sub mc (.rtarray (some s) el) p = some (a, mc', t')) (hl : t'.Leaf n) :
    ∃ i q x, p = i :: q ∧ sub mc el q = some (x, mc', t') ∧ a = i * s + x := by
  cases p with
  | nil => rw [sub_nil] at h; simp at h; obtain ⟨_, _, rfl⟩ := h; exact (Leaf_rtarray hl).elim
  | cons i q =>
    obtain ⟨x, h1, h2⟩ := sub_rtarray h
    exact ⟨i, q, x, rfl, h1, h2⟩

theorem block_apart {mode : Mode} {relaxed : Bool} {mc : MC} {inc : Nat} {infos : List Info} {tys : List Ty}
    (hf : FineBlock infos tys) (hc : check mode relaxed mc inc (.struct infos tys) = true)
    {p p' a mc' t' n a' mc'' t'' n'} (hp : sub mc (.struct infos tys) p = some (a, mc', t')) (hl : t'.Leaf n)
    (hp' : sub mc (.struct infos tys) p' = some (a', mc'', t'')) (hl' : t''.Leaf n') (hne : p ≠ p') :
    Apart a n a' n' := by
  obtain ⟨h1, h2⟩ := block_members hf hc
  have hin : ∀ {k : Nat} {i : Info} {t : Ty}, infos[k]? = some i → tys[k]? = some t → isRt t = false → Geo i.mc t := by
    intro k i t hi ht hr
    rcases rt_fine (hf.2.2 k i t hi ht).2 with ⟨s, el, rfl, _⟩ | ⟨_, hft⟩
    · simp [isRt] at hr
    · obtain ⟨g1, _, g3, _⟩ := h1 k i t hi ht
      exact geo t hft (fun hm => (g1 hm).2) g3
  obtain ⟨k, q, i, t, x, rfl, hi, ht, hq, rfl⟩ := sub_struct_leaf hp hl
  obtain ⟨k', q', i', t1, x', rfl, hi', ht', hq', rfl⟩ := sub_struct_leaf hp' hl'
  by_cases hkk : k = k'
  · subst hkk
    rw [hi] at hi'; rw [ht] at ht'
    cases hi'; cases ht'
    rcases rt_fine (hf.2.2 k i t hi ht).2 with ⟨s, el, rfl, hsu, hfe⟩ | ⟨hr, hft⟩
    · obtain ⟨g1, _, g3, _⟩ := h1 k i _ hi ht
      obtain ⟨g, hle, _, _⟩ := rt_facts hsu hfe (fun hm => (g1 hm).2) g3
      obtain ⟨j, r, y, rfl, hr, rfl⟩ := sub_rtarray_leaf hq hl
      obtain ⟨j', r', y', rfl, hr', rfl⟩ := sub_rtarray_leaf hq' hl'
      rcases Nat.lt_trichotomy j j' with h | h | h
      · have := grid y' hle (g.inside hr hl) h
        exact .inl (by omega)
      · subst h
        rcases g.apart hr hl hr' hl' (fun e => hne (by rw [e])) with h | h
        · exact .inl (by omega)
        · exact .inr (by omega)
      · have := grid y hle (g.inside hr' hl') h
        exact .inr (by omega)
    · rcases (hin hi ht hr).apart hq hl hq' hl' (fun e => hne (by rw [e])) with h | h
      · exact .inl (by omega)
      · exact .inr (by omega)
  · rcases h2 k k' i i' t t1 hi ht hi' ht' hkk with ⟨hr, h⟩ | ⟨hr, h⟩
    · have := (hin hi ht hr).inside hq hl
      exact .inl (by omega)
    · have := (hin hi' ht' hr).inside hq' hl'
      exact .inr (by omega)

/-- The parts of a block are aligned. -/
theorem block_aligned {mode : Mode} {relaxed : Bool} {mc : MC} {inc : Nat} {infos : List Info} {tys : List Ty}
    (hf : FineBlock infos tys) (hc : check mode relaxed mc inc (.struct infos tys) = true)
    {p a mc' t'} (hp : sub mc (.struct infos tys) p = some (a, mc', t')) :
    align mode relaxed mc' true t' ∣ a ∧ (p ≠ [] →
      Fine mc' t' ∨ ∃ s el, t' = .rtarray (some s) el ∧ Fine mc' el) := by
  obtain ⟨h1, h2⟩ := block_members hf hc
  cases p with
  | nil => rw [sub_nil] at hp; simp at hp; obtain ⟨rfl, _, rfl⟩ := hp; exact ⟨Nat.dvd_zero _, fun h => absurd rfl h⟩
  | cons k q =>
    have ih : ∀ i t, infos[k]? = some i → tys[k]? = some t → ∀ x, sub i.mc t q = some (x, mc', t') →
        (align mode relaxed mc' true t' ∣ x ∧ align mode relaxed mc' true t' ∣ align mode relaxed i.mc true t) ∧
        (Fine mc' t' ∨ ∃ s el, t' = .rtarray (some s) el ∧ Fine mc' el) := by
      intro i t hi ht x hx
      obtain ⟨g1, _, g3, _⟩ := h1 k i t hi ht
      rcases rt_fine (hf.2.2 k i t hi ht).2 with ⟨s, el, rfl, hsu, hfe⟩ | ⟨hr, hft⟩
      · obtain ⟨_, _, hs, hA⟩ := rt_facts hsu hfe (fun hm => (g1 hm).2) g3
        cases q with
        | nil =>
          rw [sub_nil] at hx; simp at hx; obtain ⟨rfl, rfl, rfl⟩ := hx
          exact ⟨⟨Nat.dvd_zero _, Nat.dvd_refl _⟩, .inr ⟨s, el, rfl, hfe⟩⟩
        | cons j r =>
          obtain ⟨y, hy, rfl⟩ := sub_rtarray hx
          obtain ⟨a1, a2, a3⟩ := hA r y mc' t' hy
          have e := align_pow (mode := mode) (relaxed := relaxed) el false hfe
          have e2 := ext16_pow (mode := mode) e.1
          have hd := Nat.dvd_trans a2 (Nat.dvd_trans e.2 e2.2)
          rw [align] at hs
          refine ⟨⟨?_, by rw [align]; exact hd⟩, .inl a3⟩
          exact Nat.dvd_add (Nat.dvd_trans (Nat.dvd_trans hd hs) (Nat.dvd_mul_left _ _)) a1
      · obtain ⟨a1, a2, a3⟩ := aligned t hft (fun hm => (g1 hm).2) g3 q x mc' t' hx
        exact ⟨⟨a1, a2⟩, .inl a3⟩
    have hA := aligned_struct (mc := mc) (fun k i t hi ht => ⟨(hf.2.2 k i t hi ht).2, (h1 k i t hi ht).2.1⟩) hp
      (fun i t hi ht x hx => (ih i t hi ht x hx).1)
    obtain ⟨i, t, x, hi, ht, hx, rfl⟩ := sub_struct hp
    exact ⟨hA.1, fun _ => (ih i t hi ht x hx).2⟩

/-! ## Straddling -/

/-- No improper straddle, in terms of the address modulo 16. -/
def Snug (a n : Nat) : Prop := if n ≤ 16 then a % 16 + n ≤ 16 else a % 16 = 0

theorem snug_of {x n : Nat} (hn : 1 ≤ n) (h : improperStraddle (w x) n = false) : Snug x n := by
  have hx := w_lt x
  have hm : w x % 16 = x % 16 := by unfold w; omega
  unfold improperStraddle at h
  unfold Snug
  rw [← hm]
  generalize w x = y at *
  split at h
  · next h16 =>
    rw [if_pos h16]
    simp only [ne_eq, decide_not, Bool.not_eq_false', decide_eq_true_eq, Nat.shiftRight_eq_div_pow] at h
    unfold w at h
    omega
  · next h16 =>
    rw [if_neg h16]
    simpa using h

theorem snug_iff {a n : Nat} (hn : 1 ≤ n) : Snug a n ↔ ¬ ImproperStraddle a n := by
  unfold Snug ImproperStraddle
  split <;> omega

theorem snug_mod {a b n : Nat} (h : a % 16 = b % 16) : Snug a n ↔ Snug b n := by
  unfold Snug; rw [h]

/-- The loop over the elements looks at every address modulo 16 that occurs. -/
theorem elements_spec {f : Nat → Bool} {s inc n : Nat} : ∀ {fuel i : Nat} {seen : List Nat}, fuel + i = 17 →
    (∀ r, r ∈ seen ↔ ∃ j < i, r = (j * s + inc) % 16) → (∀ j < i, j < n → f (w (j * s + inc)) = true) →
    elements f s inc n fuel i seen = true → i ≤ 16 →
    ∀ j < n, ∃ j' < n, f (w (j' * s + inc)) = true ∧ (j' * s + inc) % 16 = (j * s + inc) % 16 := by
  have hw : ∀ x, w x % 16 = x % 16 := by intro x; unfold w; omega
  intro fuel
  induction fuel with
  | zero => intro i seen h1 _ _ _ h; omega
  | succ fuel ih =>
    intro i seen hfi hseen hf h hi j hj
    rw [elements] at h
    split at h
    · next hin =>
      rw [hw] at h
      split at h
      · next hs =>
        -- the address modulo 16 was seen at `j0`: with period `i - j0` from there on
        obtain ⟨j0, hj0, he⟩ := (hseen _).1 (by simpa using hs)
        have hper : ∀ j, j < n → ∃ j' < i, (j' * s + inc) % 16 = (j * s + inc) % 16 := by
          intro j
          induction j using Nat.strongRecOn with
          | _ j ih2 =>
            intro hj
            by_cases hji : j < i
            · exact ⟨j, hji, rfl⟩
            · obtain ⟨j', hj', he'⟩ := ih2 (j - (i - j0)) (by omega) (by omega)
              refine ⟨j', hj', he'.trans ?_⟩
              have e1 : j = (j - i) + i := by omega
              have e2 : j - (i - j0) = (j - i) + j0 := by omega
              rw [e2]
              conv => rhs; rw [e1]
              rw [Nat.add_mul, Nat.add_mul]
              omega
        obtain ⟨j', hj', he'⟩ := hper j hj
        exact ⟨j', by omega, hf j' hj' (by omega), he'⟩
      · next hs =>
        rw [Bool.and_eq_true] at h
        have hi16 : i ≠ 16 := by
          rintro rfl
          apply hs
          have : (16 * s + inc) % 16 ∈ seen := (hseen _).2 ⟨0, by omega, by omega⟩
          simpa using this
        refine ih (by omega) ?_ ?_ h.2 (by omega) j hj
        · intro r
          rw [List.mem_cons, hseen]
          constructor
          · rintro (rfl | ⟨j, hj, rfl⟩)
            · exact ⟨i, by omega, rfl⟩
            · exact ⟨j, by omega, rfl⟩
          · rintro ⟨j, hj, rfl⟩
            by_cases hji : j = i
            · subst hji; exact .inl rfl
            · exact .inr ⟨j, by omega, rfl⟩
        · intro j hj hjn
          by_cases hji : j = i
          · subst hji; exact h.1
          · exact hf j (by omega) hjn
    · next hin => exact ⟨j, hj, hf j (by omega) hj, rfl⟩

theorem checkArray_all {count : Nat} {s elSize align inc : Nat} {f : Nat → Bool} (hu : s < unknown)
    (h : checkArray count (some s) elSize align inc f = true) {j : Nat} (hj : j < max 1 (w count)) :
    ∃ j', f (w (j' * s + inc)) = true ∧ (j' * s + inc) % 16 = (j * s + inc) % 16 := by
  simp only [checkArray] at h
  split at h
  · simp at h
  · rw [if_neg (Nat.ne_of_lt hu), Bool.and_eq_true, Bool.and_eq_true] at h
    obtain ⟨j', _, h1, h2⟩ := elements_spec (by omega) (by simp) (by intro j hj; omega) h.2 (by omega) j hj
    exact ⟨j', h1, h2⟩

theorem isMember_cons {mc : MC} {t el : Ty} {i : Nat} {q : List Nat} (hs : ∀ is ts, t ≠ .struct is ts)
    (h : ∀ q y, sub mc t (i :: q) = some y → ∃ z, sub mc el q = some z ∧ z.2 = y.2)
    (hm : IsMember mc t (i :: q)) : IsMember mc el q := by
  obtain ⟨r, k, a, mc', infos, tys, he, hr⟩ := hm
  cases r with
  | nil =>
    rw [sub_nil] at hr; simp at hr
    exact (hs _ _ hr.2.2).elim
  | cons j r =>
    simp at he
    obtain ⟨rfl, rfl⟩ := he
    obtain ⟨⟨z1, z2⟩, hz, hz2⟩ := h r _ hr
    simp at hz2; subst hz2
    exact ⟨r, k, z1, mc', infos, tys, rfl, hz⟩

/-- In relaxed layouts vectors that are members of structs do not straddle. -/
theorem straddle {mode : Mode} (hm : mode ≠ .scalar) (t : Ty) : ∀ {mc : MC} {inc : Nat}, Fine mc t →
    (containsMatrix t = true → mc.stride ≠ 0) → check mode true mc (w inc) t = true →
    ∀ p a mc' b n, IsMember mc t p → sub mc t p = some (a, mc', .vector b n) → Snug (inc + a) (b * n) := by
  induction t using Ty.ind with
  | scalar b =>
    rintro mc inc _ _ _ p a mc' b n ⟨q, k, a', mc'', is, ts, rfl, h⟩
    simp only [sub] at h; split at h <;> simp at h
  | handle b al =>
    rintro mc inc _ _ _ p a mc' b n ⟨q, k, a', mc'', is, ts, rfl, h⟩
    simp only [sub] at h; split at h <;> simp at h
  | vector b n =>
    rintro mc inc _ _ _ p a mc' b n ⟨q, k, a', mc'', is, ts, rfl, h⟩
    unfold sub at h; split at h
    · simp at h
    · split at h <;> simp at h
    · simp at h
  | matrix b r c =>
    rintro mc inc _ _ _ p a mc' b n ⟨q, k, a', mc'', is, ts, rfl, h⟩
    unfold sub at h; split at h
    · simp at h
    · split at h <;> simp at h
    · simp at h
  | rtarray s el ih => intro mc inc h; simp [Fine] at h
  | array n s el ih =>
    intro mc inc hf h0 hc p a mc' b n' hmem hp
    have h := hf
    simp only [Fine] at h
    obtain ⟨⟨k, rfl, hk⟩, ⟨s, rfl, hsu⟩, hx, hel⟩ := h
    rw [check] at hc
    obtain ⟨hs0, _, _, _⟩ := checkArray_spec hsu hc
    simp only [extent, Option.getD_some] at hx
    have hk32 : k < 2 ^ 32 := by
      have : (k - 1) * 1 ≤ (k - 1) * s := Nat.mul_le_mul_left _ (by omega)
      omega
    cases p with
    | nil => rw [sub_nil] at hp; simp at hp
    | cons j q =>
      obtain ⟨x, hj, hq, rfl⟩ := sub_array hp
      have hmem' := isMember_cons (el := el) (by simp) (by
        intro q y hy
        obtain ⟨y1, y2, y3⟩ := y
        obtain ⟨x, _, h1, _⟩ := sub_array hy
        exact ⟨_, h1, rfl⟩) hmem
      obtain ⟨j', h1, h2⟩ := checkArray_all hsu hc (j := j) (by
        simp only [Option.getD_some, w_of_lt hk32]; omega)
      have := ih hel h0 h1 q x mc' b n' hmem' hq
      refine (snug_mod ?_).1 this
      have hw : w inc % 16 = inc % 16 := by unfold w; omega
      omega
  | struct infos tys ih =>
    intro mc inc hF _ hc p a mc' b n hmem hp
    have hfb := fineBlock_of_fine hF
    simp only [Fine, fines_iff] at hF
    obtain ⟨h1, _⟩ := block_members hfb hc
    cases p with
    | nil => rw [sub_nil] at hp; simp at hp
    | cons k q =>
      obtain ⟨i, t, x, hi, ht, hx, rfl⟩ := sub_struct hp
      obtain ⟨g1, _, g3, g4⟩ := h1 k i t hi ht
      have hft := (hF.2.2 k i t hi ht).2
      have hw : w (w inc + i.offset) = w (inc + i.offset) := by unfold w; omega
      rw [hw] at g3 g4
      cases q with
      | nil =>
        rw [sub_nil] at hx
        simp at hx
        obtain ⟨rfl, rfl, rfl⟩ := hx
        have hb := hft
        simp only [Fine] at hb
        have hsz : size i.mc (.vector b n) = b * n := by rw [size, w_of_lt (by omega)]
        rw [hsz] at g4
        refine snug_of ?_ (g4 hm rfl rfl)
        have : 1 * 1 ≤ b * n := Nat.mul_le_mul hb.1.pow.pos hb.2.1
        omega
      | cons j q =>
        have := ih t (List.mem_of_getElem? ht) hft (fun hm => (g1 hm).2) g3 (j :: q) x mc' b n ?_ hx
        · rwa [Nat.add_assoc] at this
        · obtain ⟨r, l, a', mc'', is, ts, he, hr⟩ := hmem
          cases r with
          | nil => simp at he
          | cons k' r =>
            simp only [List.cons_append, List.cons.injEq] at he
            obtain ⟨rfl, he⟩ := he
            obtain ⟨i', t', x', hi', ht', hx', _⟩ := sub_struct hr
            rw [hi] at hi'; rw [ht] at ht'; cases hi'; cases ht'
            exact ⟨r, l, x', mc'', is, ts, he, hx'⟩

end Verif.BlockLayout
