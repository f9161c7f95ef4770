import Verif.BlockLayout.Arith
/-! # Lemmas: induction over types, members -/
set_option linter.unusedSimpArgs false
set_option linter.unusedVariables false
namespace Verif.BlockLayout

theorem Ty.ind {P : Ty → Prop} (scalar : ∀ b, P (.scalar b)) (handle : ∀ b a, P (.handle b a))
    (vector : ∀ b n, P (.vector b n)) (matrix : ∀ b r c, P (.matrix b r c))
    (array : ∀ n s el, P el → P (.array n s el)) (rtarray : ∀ s el, P el → P (.rtarray s el))
    (struct : ∀ infos tys, (∀ t ∈ tys, P t) → P (.struct infos tys)) (t : Ty) : P t := by
  refine Ty.rec (motive_1 := P) (motive_2 := fun l => ∀ t ∈ l, P t) scalar handle vector matrix array rtarray
    struct ?_ ?_ t
  · simp
  · intro t l ht hl x hx
    rcases List.mem_cons.1 hx with rfl | hx
    · exact ht
    · exact hl x hx

theorem fines_iff : ∀ {infos : List Info} {tys : List Ty}, Fines infos tys ↔
    ∀ (k : Nat) (i : Info) (t : Ty), infos[k]? = some i → tys[k]? = some t → i.offset < unknown ∧ Fine i.mc t
  | [], _ => by simp [Fines]
  | i :: is, [] => by simp [Fines]
  | i :: is, t :: ts => by
    rw [Fines, fines_iff]
    constructor
    · rintro ⟨h1, h2, h3⟩ k i' t' hi ht
      cases k with
      | zero => simp at hi ht; subst hi; subst ht; exact ⟨h1, h2⟩
      | succ k => exact h3 k i' t' (by simpa using hi) (by simpa using ht)
    · intro h
      refine ⟨(h 0 i t rfl rfl).1, (h 0 i t rfl rfl).2, fun k i' t' hi ht => h (k + 1) i' t' (by simpa using hi)
        (by simpa using ht)⟩

theorem decorated_get : ∀ {infos : List Info} {tys : List Ty}, decorated infos tys = true →
    ∀ {k : Nat} {i : Info} {t : Ty}, infos[k]? = some i → tys[k]? = some t →
      i.hasOffset = true ∧ (containsMatrix t = true → i.hasMatrix = true ∧ i.mc.stride ≠ 0)
  | [], _, _, k, i, t, hi, _ => by simp at hi
  | _ :: _, [], _, k, i, t, _, ht => by simp at ht
  | i :: is, t :: ts, h, k, i', t', hi, ht => by
    simp only [decorated, Bool.and_eq_true] at h
    cases k with
    | zero =>
      simp at hi ht; subst hi; subst ht
      refine ⟨h.1.1, fun hc => ?_⟩
      have := h.1.2
      simpa [hc] using this
    | succ k => exact decorated_get h.2 (k := k) (by simpa using hi) (by simpa using ht)

theorem decorated_of : ∀ {infos : List Info} {tys : List Ty},
    (∀ (k : Nat) (i : Info) (t : Ty), infos[k]? = some i → tys[k]? = some t →
      i.hasOffset = true ∧ (containsMatrix t = true → i.hasMatrix = true ∧ i.mc.stride ≠ 0)) →
    decorated infos tys = true
  | [], _, _ => rfl
  | _ :: _, [], _ => rfl
  | i :: is, t :: ts, h => by
    simp only [decorated, Bool.and_eq_true]
    refine ⟨⟨(h 0 i t rfl rfl).1, ?_⟩, decorated_of fun k i' t' hi ht => h (k + 1) i' t' (by simpa using hi)
      (by simpa using ht)⟩
    cases hc : containsMatrix t with
    | false => simp
    | true => simpa using (h 0 i t rfl rfl).2 hc

/-- The record of a member. -/
def mkRec (mode : Mode) (relaxed : Bool) (mc : MC) (incoming : Nat) (i : Info) (t : Ty) : Rec :=
  { offset := i.offset
    align := align mode relaxed (if i.hasMatrix then i.mc else mc) true t
    size := size (if i.hasMatrix then i.mc else mc) t
    isRt := isRt t, isVec := isVec t, isAggr := isAggr t
    child := check mode relaxed (if i.hasMatrix then i.mc else mc) (w (incoming + i.offset)) t }

theorem recs_get {mode : Mode} {relaxed : Bool} {mc : MC} {inc : Nat} : ∀ {infos : List Info} {tys : List Ty}
    {k : Nat} {m : Rec}, (recs mode relaxed mc inc infos tys)[k]? = some m ↔
      ∃ i t, infos[k]? = some i ∧ tys[k]? = some t ∧ m = mkRec mode relaxed mc inc i t
  | [], _, k, m => by simp [recs]
  | _ :: _, [], k, m => by simp [recs]
  | i :: is, t :: ts, k, m => by
    rw [recs]
    cases k with
    | zero =>
      constructor
      · intro h
        simp at h
        exact ⟨i, t, rfl, rfl, h.symm⟩
      · rintro ⟨i', t', hi, ht, rfl⟩
        simp at hi ht
        subst hi; subst ht; rfl
    | succ k => simp only [List.getElem?_cons_succ]; exact recs_get

theorem subs_eq : ∀ {infos : List Info} {tys : List Ty} {k : Nat} {p : List Nat} {x : Nat × MC × Ty},
    subs infos tys k p = some x ↔ ∃ i t y, infos[k]? = some i ∧ tys[k]? = some t ∧ sub i.mc t p = some y ∧
      x = (i.offset + y.1, y.2)
  | [], _, k, p, x => by simp [subs]
  | _ :: _, [], k, p, x => by simp [subs]
  | i :: is, t :: ts, 0, p, x => by
    rw [subs, Option.map_eq_some_iff]
    constructor
    · rintro ⟨y, hy, rfl⟩
      exact ⟨i, t, y, rfl, rfl, hy, rfl⟩
    · rintro ⟨i', t', y, hi, ht, hy, rfl⟩
      simp at hi ht; subst hi; subst ht
      exact ⟨y, hy, rfl⟩
  | i :: is, t :: ts, k + 1, p, x => by
    rw [subs]; simp only [List.getElem?_cons_succ]; exact subs_eq

theorem extents_ge : ∀ {infos : List Info} {tys : List Ty} {k : Nat} {i : Info} {t : Ty}, infos[k]? = some i →
    tys[k]? = some t → i.offset + extent i.mc t ≤ extents infos tys
  | [], _, k, i, t, hi, _ => by simp at hi
  | _ :: _, [], k, i, t, _, ht => by simp at ht
  | i :: is, t :: ts, 0, i', t', hi, ht => by
    simp at hi ht; subst hi; subst ht
    rw [extents]; exact Nat.le_max_left _ _
  | i :: is, t :: ts, k + 1, i', t', hi, ht => by
    rw [extents]
    exact Nat.le_trans (extents_ge (k := k) (by simpa using hi) (by simpa using ht)) (Nat.le_max_right _ _)

theorem aligns_mem {mode : Mode} {relaxed : Bool} : ∀ {infos : List Info} {tys : List Ty} {a : Nat},
    a ∈ aligns mode relaxed infos tys ↔ ∃ (k : Nat) (i : Info) (t : Ty), infos[k]? = some i ∧ tys[k]? = some t ∧
      a = align mode relaxed i.mc true t
  | [], _, a => by simp [aligns]
  | _ :: _, [], a => by simp [aligns]
  | i :: is, t :: ts, a => by
    rw [aligns, List.mem_cons, aligns_mem]
    constructor
    · rintro (h | ⟨k, i', t', hi, ht, h⟩)
      · exact ⟨0, i, t, rfl, rfl, h⟩
      · exact ⟨k + 1, i', t', by simpa using hi, by simpa using ht, h⟩
    · rintro ⟨k, i', t', hi, ht, h⟩
      cases k with
      | zero => simp at hi ht; subst hi; subst ht; exact .inl h
      | succ k => exact .inr ⟨k, i', t', by simpa using hi, by simpa using ht, h⟩

/-! ## Types without matrices -/

theorem recs_congr {mode : Mode} {relaxed : Bool} {mc mc' : MC} {inc : Nat} : ∀ {infos : List Info} {tys : List Ty},
    (∀ (k : Nat) (i : Info) (t : Ty), infos[k]? = some i → tys[k]? = some t →
      mkRec mode relaxed mc inc i t = mkRec mode relaxed mc' inc i t) →
    recs mode relaxed mc inc infos tys = recs mode relaxed mc' inc infos tys
  | [], _, _ => by simp [recs]
  | _ :: _, [], _ => by simp [recs]
  | i :: is, t :: ts, h => by
    rw [recs, recs, recs_congr fun k i' t' hi ht => h (k + 1) i' t' (by simpa using hi) (by simpa using ht)]
    exact congrArg (· :: _) (h 0 i t rfl rfl)

theorem mc_irrel {mode : Mode} {relaxed : Bool} {mc mc' : MC} (t : Ty) : containsMatrix t = false →
    size mc t = size mc' t ∧ (∀ allow, align mode relaxed mc allow t = align mode relaxed mc' allow t) ∧
    ∀ inc, check mode relaxed mc inc t = check mode relaxed mc' inc t := by
  induction t using Ty.ind with
  | scalar b => simp [size, align, check]
  | handle b a => simp [size, align, check]
  | vector b n => simp [size, align, check]
  | matrix b r c => simp [containsMatrix]
  | array n s el ih =>
    intro h
    obtain ⟨h1, h2, h3⟩ := ih h
    refine ⟨?_, fun _ => ?_, fun inc => ?_⟩
    · cases n <;> simp [size, h1]
    · simp [align, h2]
    · simp [check, h1, h2, h3]
  | rtarray s el ih =>
    intro h
    obtain ⟨h1, h2, h3⟩ := ih h
    refine ⟨?_, fun _ => ?_, fun inc => ?_⟩
    · simp [size]
    · simp [align, h2]
    · simp [check, h1, h2, h3]
  | struct infos tys ih =>
    intro _
    refine ⟨by simp [size], by simp [align], fun inc => ?_⟩
    rw [check, check]
    cases hd : decorated infos tys with
    | false => rfl
    | true =>
      rw [recs_congr]
      intro k i t hi ht
      unfold mkRec
      cases hm : i.hasMatrix with
      | true => simp
      | false =>
        have hc : containsMatrix t = false := by
          cases hc : containsMatrix t with
          | false => rfl
          | true => have := ((decorated_get hd hi ht).2 hc).1; simp [hm] at this
        obtain ⟨h1, h2, h3⟩ := ih t (List.mem_of_getElem? ht) hc
        simp [h1, h2, h3]

theorem mkRec_own {mode : Mode} {relaxed : Bool} {mc : MC} {inc : Nat} {infos : List Info} {tys : List Ty}
    (hd : decorated infos tys = true) {k : Nat} {i : Info} {t : Ty} (hi : infos[k]? = some i)
    (ht : tys[k]? = some t) : mkRec mode relaxed mc inc i t = mkRec mode relaxed i.mc inc i t := by
  unfold mkRec
  cases hm : i.hasMatrix with
  | true => simp
  | false =>
    have hc : containsMatrix t = false := by
      cases hc : containsMatrix t with
      | false => rfl
      | true => have := ((decorated_get hd hi ht).2 hc).1; simp [hm] at this
    obtain ⟨h1, h2, h3⟩ := mc_irrel (mode := mode) (relaxed := relaxed) (mc := mc) (mc' := i.mc) t hc
    simp [h1, h2, h3]

theorem sizes_eq {mode : Mode} {relaxed : Bool} {mc : MC} {inc : Nat} : ∀ {infos : List Info} {tys : List Ty},
    (∀ (k : Nat) (i : Info) (t : Ty), infos[k]? = some i → tys[k]? = some t →
      mkRec mode relaxed mc inc i t = mkRec mode relaxed i.mc inc i t) →
    sizes infos tys = (recs mode relaxed mc inc infos tys).map fun m => (m.offset, m.size)
  | [], _, _ => by simp [recs, sizes]
  | _ :: _, [], _ => by simp [recs, sizes]
  | i :: is, t :: ts, h => by
    rw [recs, sizes, sizes_eq fun k i' t' hi ht => h (k + 1) i' t' (by simpa using hi) (by simpa using ht)]
    have := congrArg Rec.size (h 0 i t rfl rfl)
    simp only [mkRec] at this
    simp [this]

/-! ## Alignments -/

theorem align_pow {mode : Mode} {relaxed : Bool} (t : Ty) : ∀ {mc : MC} (allow : Bool), Fine mc t →
    Pow (align mode relaxed mc allow t) ∧ align mode relaxed mc true t ∣ align mode relaxed mc allow t := by
  induction t using Ty.ind with
  | scalar b => intro mc allow h; simp only [align]; exact ⟨Width.pow h, Nat.dvd_refl _⟩
  | handle b a => intro mc allow h; simp only [align]; exact ⟨h.2, Nat.dvd_refl _⟩
  | vector b n =>
    intro mc allow h
    simp only [Fine] at h
    simp only [align]
    exact ⟨(vecAlign_pow h.1 h.2.1).1, vecAlign_allow h.1 h.2.1⟩
  | matrix b r c =>
    intro mc allow h
    simp only [Fine] at h
    simp only [align]
    exact ⟨(matAlign_pow h.1 h.2.1 h.2.2.1).1, Nat.dvd_refl _⟩
  | array n s el ih =>
    intro mc allow h
    simp only [Fine] at h
    simp only [align]
    exact ⟨(ext16_pow (ih false h.2.2.2).1).1, Nat.dvd_refl _⟩
  | rtarray s el ih => intro mc allow h; simp [Fine] at h
  | struct infos tys ih =>
    intro mc allow h
    simp only [Fine, fines_iff] at h
    simp only [align]
    refine ⟨(maxAlign_pow ⟨0, by omega, rfl⟩ ?_).1, Nat.dvd_refl _⟩
    intro a ha
    obtain ⟨k, i, t, hi, ht, rfl⟩ := aligns_mem.1 ha
    exact (ih t (List.mem_of_getElem? ht) true (h.2.2 k i t hi ht).2).1

theorem align_member {mode : Mode} {relaxed : Bool} {i : Info} {t : Ty} (h : FineMember i t) :
    Pow (align mode relaxed i.mc true t) := by
  cases t with
  | rtarray s el =>
    simp only [align]
    exact (ext16_pow (align_pow el false h.2).1).1
  | _ => exact (align_pow _ true h).1

theorem align_struct {mode : Mode} {relaxed : Bool} {infos : List Info} {tys : List Ty} {mc : MC} {allow : Bool}
    (h : ∀ (k : Nat) (i : Info) (t : Ty), infos[k]? = some i → tys[k]? = some t → FineMember i t)
    {k : Nat} {i : Info} {t : Ty} (hi : infos[k]? = some i) (ht : tys[k]? = some t) :
    align mode relaxed i.mc true t ∣ align mode relaxed mc allow (.struct infos tys) := by
  rw [align]
  refine (maxAlign_pow ⟨0, by omega, rfl⟩ ?_).2.2 _ (aligns_mem.2 ⟨k, i, t, hi, ht, rfl⟩)
  intro a ha
  obtain ⟨k, i, t, hi, ht, rfl⟩ := aligns_mem.1 ha
  exact align_member (h k i t hi ht)

theorem fineMember_of_fine {i : Info} {t : Ty} (h : Fine i.mc t) : FineMember i t := by
  cases t with
  | rtarray s el => simp [Fine] at h
  | _ => exact h

end Verif.BlockLayout
