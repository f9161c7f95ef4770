import Verif.DefUse.Model

set_option linter.unusedSimpArgs false
set_option linter.unusedVariables false

namespace Verif.DefUse

theorem upd_self {α β : Type} [DecidableEq α] (f : α → β) (a : α) (b : β) : upd f a b a = b := by
  simp [upd]

theorem upd_other {α β : Type} [DecidableEq α] (f : α → β) {a x : α} (b : β) (h : x ≠ a) :
    upd f a b x = f x := by
  simp [upd, h]

/-- ids an instruction refers to, in order. -/
def useIds (inst : Inst) : List Id :=
  (inst.operands.filter fun p => isUseType p.1).map (·.2)

/-- The pair set agrees with the recorded ids. -/
structure R (m : Mgr) : Prop where
  mem : ∀ d u, (d, u) ∈ m.users ↔
    ∃ ids id, m.used u = some ids ∧ id ∈ ids ∧ m.defs id = some d
  nodup : m.users.Nodup

theorem eraseFold_mem (defs : Id → Option Ptr) (i : Ptr) (ids : List Id)
    (us : List (Ptr × Ptr)) (p : Ptr × Ptr) :
    p ∈ ids.foldl (fun us id => match defs id with
        | some d => us.filter (fun p => p ≠ (d, i))
        | none => us) us ↔
      p ∈ us ∧ ¬ ∃ id ∈ ids, ∃ d, defs id = some d ∧ p = (d, i) := by
  induction ids generalizing us with
  | nil => simp
  | cons a ids ih =>
    rw [List.foldl_cons, ih]
    cases ha : defs a with
    | none =>
      simp only [List.mem_cons]
      constructor
      · rintro ⟨h1, h2⟩
        refine ⟨h1, ?_⟩
        rintro ⟨id, hid | hid, d, hd, hp⟩
        · subst hid; rw [ha] at hd; cases hd
        · exact h2 ⟨id, hid, d, hd, hp⟩
      · rintro ⟨h1, h2⟩
        exact ⟨h1, fun ⟨id, hid, d, hd, hp⟩ => h2 ⟨id, Or.inr hid, d, hd, hp⟩⟩
    | some d0 =>
      simp only [List.mem_cons, List.mem_filter, decide_eq_true_eq, ne_eq]
      constructor
      · rintro ⟨⟨h1, h3⟩, h2⟩
        refine ⟨h1, ?_⟩
        rintro ⟨id, hid | hid, d, hd, hp⟩
        · subst hid; rw [ha] at hd; cases hd; exact h3 hp
        · exact h2 ⟨id, hid, d, hd, hp⟩
      · rintro ⟨h1, h2⟩
        exact ⟨⟨h1, fun hp => h2 ⟨a, Or.inl rfl, d0, ha, hp⟩⟩,
          fun ⟨id, hid, d, hd, hp⟩ => h2 ⟨id, Or.inr hid, d, hd, hp⟩⟩

theorem eraseFold_nodup (defs : Id → Option Ptr) (i : Ptr) (ids : List Id)
    (us : List (Ptr × Ptr)) (h : us.Nodup) :
    (ids.foldl (fun us id => match defs id with
        | some d => us.filter (fun p => p ≠ (d, i))
        | none => us) us).Nodup := by
  induction ids generalizing us with
  | nil => exact h
  | cons a ids ih =>
    rw [List.foldl_cons]
    apply ih
    cases ha : defs a with
    | none => exact h
    | some d0 => exact h.filter _

theorem eraseUses_defs (m : Mgr) (i : Ptr) : (eraseUses m i).defs = m.defs := by
  unfold eraseUses; split <;> rfl

theorem eraseUses_used (m : Mgr) (i : Ptr) : (eraseUses m i).used = upd m.used i none := by
  unfold eraseUses
  split
  · rename_i h
    funext x
    unfold upd
    split
    · rename_i hx; rw [hx, h]
    · rfl
  · rfl

theorem eraseUses_R {m : Mgr} (h : R m) (i : Ptr) : R (eraseUses m i) := by
  have hd := eraseUses_defs m i
  have hu := eraseUses_used m i
  cases hi : m.used i with
  | none =>
    have : eraseUses m i = m := by unfold eraseUses; rw [hi]
    rw [this]; exact h
  | some ids =>
    have hus : (eraseUses m i).users = ids.foldl (fun us id => match m.defs id with
        | some d => us.filter (fun p => p ≠ (d, i))
        | none => us) m.users := by unfold eraseUses; rw [hi]; rfl
    constructor
    · intro d u
      rw [hus, eraseFold_mem, h.mem, hd, hu]
      constructor
      · rintro ⟨⟨ids', id, h1, h2, h3⟩, h4⟩
        by_cases hui : u = i
        · subst hui
          rw [hi] at h1; cases h1
          exact absurd ⟨id, h2, d, h3, rfl⟩ h4
        · exact ⟨ids', id, by rw [upd_other _ _ hui]; exact h1, h2, h3⟩
      · rintro ⟨ids', id, h1, h2, h3⟩
        by_cases hui : u = i
        · subst hui; rw [upd_self] at h1; cases h1
        · rw [upd_other _ _ hui] at h1
          refine ⟨⟨ids', id, h1, h2, h3⟩, ?_⟩
          rintro ⟨_, _, _, _, hp⟩
          exact hui (by cases hp; rfl)
    · rw [hus]; exact eraseFold_nodup _ _ _ _ h.nodup

theorem clearInst_none {m : Mgr} {i : Ptr} {inst : Inst} (h : m.used i = none) :
    clearInst m i inst = m := by
  unfold clearInst; rw [h]

theorem clearInst_R {m : Mgr} {i : Ptr} {inst : Inst} (h : R m) (hu : (m.used i).isSome)
    (hdef : ∀ id, m.defs id = some i ↔ id ≠ 0 ∧ inst.result = id) :
    R (clearInst m i inst) ∧ (clearInst m i inst).used = upd m.used i none ∧
      ∀ id, (clearInst m i inst).defs id =
        if inst.result ≠ 0 ∧ id = inst.result then none else m.defs id := by
  obtain ⟨ids, hids⟩ := Option.isSome_iff_exists.mp hu
  have hR := eraseUses_R h i
  have hd := eraseUses_defs m i
  have hus := eraseUses_used m i
  unfold clearInst
  rw [hids]
  dsimp only
  split
  · rename_i hr
    refine ⟨⟨?_, ?_⟩, ?_, ?_⟩
    · intro d u
      dsimp only
      rw [List.mem_filter, hR.mem, hd]
      simp only [decide_eq_true_eq, ne_eq]
      constructor
      · rintro ⟨⟨ids', id, h1, h2, h3⟩, h4⟩
        refine ⟨ids', id, h1, h2, ?_⟩
        rw [upd_other]
        · exact h3
        · intro he
          subst he
          rw [(hdef inst.result).mpr ⟨hr, rfl⟩] at h3
          cases h3; exact h4 rfl
      · rintro ⟨ids', id, h1, h2, h3⟩
        have hne : id ≠ inst.result := by
          intro he; subst he; rw [upd_self] at h3; cases h3
        rw [upd_other _ _ hne] at h3
        refine ⟨⟨ids', id, h1, h2, h3⟩, ?_⟩
        intro he
        subst he
        exact hne ((hdef id).mp h3).2.symm
    · exact hR.nodup.filter _
    · exact hus
    · intro id
      dsimp only
      rw [hd]
      unfold upd
      by_cases hid : id = inst.result
      · rw [if_pos hid, if_pos ⟨hr, hid⟩]
      · rw [if_neg hid, if_neg (fun h => hid h.2)]
  · rename_i hr
    refine ⟨hR, hus, ?_⟩
    intro id
    rw [hd, if_neg (fun h => hr h.1)]

theorem analyzeDef_fresh {w : World} {m : Mgr} {i : Ptr} {inst : Inst} (h : R m)
    (hu : m.used i = none)
    (hf : inst.result ≠ 0 → m.defs inst.result = none)
    (hn : inst.result ≠ 0 → ∀ u ids, m.used u = some ids → inst.result ∉ ids) :
    R (analyzeDef w m i inst) ∧ (analyzeDef w m i inst).used = m.used ∧
      ∀ id, (analyzeDef w m i inst).defs id =
        if inst.result ≠ 0 ∧ id = inst.result then some i else m.defs id := by
  unfold analyzeDef
  split
  · rename_i hr
    rw [hf hr]
    dsimp only
    refine ⟨⟨?_, h.nodup⟩, by first | rfl | trivial, ?_⟩
    · intro d u
      dsimp only
      rw [h.mem]
      constructor
      · rintro ⟨ids, id, h1, h2, h3⟩
        refine ⟨ids, id, h1, h2, ?_⟩
        rw [upd_other]
        · exact h3
        · intro he; subst he; exact hn hr u ids h1 h2
      · rintro ⟨ids, id, h1, h2, h3⟩
        refine ⟨ids, id, h1, h2, ?_⟩
        rw [upd_other] at h3
        · exact h3
        · intro he; subst he; exact hn hr u ids h1 h2
    · intro id
      unfold upd
      by_cases hid : id = inst.result
      · rw [if_pos hid, if_pos ⟨hr, hid⟩]
      · rw [if_neg hid, if_neg (fun h => hid h.2)]
  · rename_i hr
    rw [clearInst_none hu]
    refine ⟨h, rfl, ?_⟩
    intro id
    rw [if_neg (fun h => hr h.1)]

theorem insertUser_mem (us : List (Ptr × Ptr)) (p q : Ptr × Ptr) :
    q ∈ insertUser us p ↔ q ∈ us ∨ q = p := by
  unfold insertUser
  split
  · rename_i h
    constructor
    · exact Or.inl
    · rintro (h1 | h1)
      · exact h1
      · rw [h1]; exact h
  · simp

theorem insertUser_nodup {us : List (Ptr × Ptr)} (p : Ptr × Ptr) (h : us.Nodup) :
    (insertUser us p).Nodup := by
  unfold insertUser
  split
  · exact h
  · rename_i hp
    rw [List.nodup_append]
    refine ⟨h, by simp, ?_⟩
    intro a ha b hb hab
    simp at hb
    subst hb; subst hab; exact hp ha

theorem useLoop_spec (defs : Id → Option Ptr) (i : Ptr) (ops : List (Kind × Nat))
    (us : List (Ptr × Ptr)) (ids : List Id)
    (hd : ∀ p ∈ ops, isUseType p.1 → (defs p.2).isSome) (hn : us.Nodup) :
    ∃ us', useLoop defs i ops us ids =
        some (us', ids ++ (ops.filter fun p => isUseType p.1).map (·.2)) ∧ us'.Nodup ∧
      ∀ q, q ∈ us' ↔ q ∈ us ∨
        ∃ id ∈ (ops.filter fun p => isUseType p.1).map (·.2), ∃ d, defs id = some d ∧ q = (d, i) := by
  induction ops generalizing us ids with
  | nil => exact ⟨us, by simp [useLoop], hn, by simp⟩
  | cons p ops ih =>
    obtain ⟨k, wd⟩ := p
    have hd' : ∀ p ∈ ops, isUseType p.1 → (defs p.2).isSome := fun p hp =>
      hd p (List.mem_cons_of_mem _ hp)
    unfold useLoop
    split
    · rename_i hk
      obtain ⟨d, hdd⟩ := Option.isSome_iff_exists.mp (hd (k, wd) List.mem_cons_self hk)
      dsimp only at hdd
      rw [hdd]
      dsimp only
      obtain ⟨us', h1, h2, h3⟩ := ih (insertUser us (d, i)) (ids ++ [wd]) hd'
        (insertUser_nodup _ hn)
      refine ⟨us', ?_, h2, ?_⟩
      · rw [h1, List.filter_cons_of_pos (by exact hk)]; simp
      · intro q
        rw [h3, insertUser_mem, List.filter_cons_of_pos (by exact hk)]
        simp only [List.map_cons, List.mem_cons]
        constructor
        · rintro ((h | h) | ⟨id, h4, h5⟩)
          · exact Or.inl h
          · exact Or.inr ⟨wd, Or.inl rfl, d, hdd, h⟩
          · exact Or.inr ⟨id, Or.inr h4, h5⟩
        · rintro (h | ⟨id, h4 | h4, d', h5, h6⟩)
          · exact Or.inl (Or.inl h)
          · subst h4; rw [hdd] at h5; cases h5; exact Or.inl (Or.inr h6)
          · exact Or.inr ⟨id, h4, d', h5, h6⟩
    · rename_i hk
      obtain ⟨us', h1, h2, h3⟩ := ih us ids hd' hn
      refine ⟨us', ?_, h2, ?_⟩
      · rw [h1, List.filter_cons_of_neg (by exact hk)]
      · intro q
        rw [h3, List.filter_cons_of_neg (by exact hk)]

theorem analyzeUse_spec {m : Mgr} {i : Ptr} {inst : Inst} (h : R m)
    (hd : ∀ id ∈ useIds inst, (m.defs id).isSome) :
    ∃ m', analyzeUse m i inst = some m' ∧ R m' ∧ m'.defs = m.defs ∧
      m'.used = upd m.used i (some (useIds inst)) := by
  have key : ∀ m0 : Mgr, R m0 → m0.defs = m.defs → (m0.used i = none ∨ m0.used i = some []) →
      (∀ x, x ≠ i → m0.used x = m.used x) →
      ∃ m', (match useLoop m0.defs i inst.operands m0.users [] with
        | none => none
        | some (us, ids) => some { m0 with users := us, used := upd m0.used i (some ids) }) = some m' ∧
        R m' ∧ m'.defs = m.defs ∧ m'.used = upd m.used i (some (useIds inst)) := by
    intro m0 hR hd0 hu0 hx
    obtain ⟨us', h1, h2, h3⟩ := useLoop_spec m0.defs i inst.operands m0.users [] (by
      intro p hp hk
      rw [hd0]
      exact hd p.2 (List.mem_map.mpr ⟨p, List.mem_filter.mpr ⟨hp, hk⟩, rfl⟩)) hR.nodup
    rw [h1]
    refine ⟨_, rfl, ⟨?_, h2⟩, hd0, ?_⟩
    · intro d u
      dsimp only
      rw [h3, hR.mem]
      constructor
      · rintro (⟨ids, id, h4, h5, h6⟩ | ⟨id, h4, d', h5, h6⟩)
        · have hui : u ≠ i := by
            intro he; subst he
            rcases hu0 with hu0 | hu0
            · rw [hu0] at h4; cases h4
            · rw [hu0] at h4; cases h4; cases h5
          exact ⟨ids, id, by rw [upd_other _ _ hui]; exact h4, h5, h6⟩
        · cases h6
          exact ⟨_, id, upd_self _ _ _, by simpa using h4, h5⟩
      · rintro ⟨ids, id, h4, h5, h6⟩
        by_cases hui : u = i
        · subst hui
          rw [upd_self] at h4; cases h4
          refine Or.inr ⟨id, by simpa using h5, d, h6, rfl⟩
        · rw [upd_other _ _ hui] at h4
          exact Or.inl ⟨ids, id, h4, h5, h6⟩
    · dsimp only
      funext x
      by_cases hxi : x = i
      · subst hxi; rw [upd_self, upd_self]; simp [useIds]
      · rw [upd_other _ _ hxi, upd_other _ _ hxi, hx x hxi]
  unfold analyzeUse
  dsimp only
  cases hu : m.used i with
  | none => exact key m h rfl (Or.inl hu) (fun _ _ => rfl)
  | some ids =>
    cases ids with
    | nil => exact key m h rfl (Or.inr hu) (fun _ _ => rfl)
    | cons a ids =>
      exact key (eraseUses m i) (eraseUses_R h i) (eraseUses_defs m i)
        (Or.inl (by rw [eraseUses_used, upd_self]))
        (fun x hx => by rw [eraseUses_used, upd_other _ _ hx])

/-- The manager describes the module: definitions relative to `w`, uses relative to the
part `wu` that has been analysed. -/
structure Inv (w wu : World) (m : Mgr) : Prop where
  r : R m
  d : ∀ id i, m.defs id = some i ↔ id ≠ 0 ∧ ∃ inst, w i = some inst ∧ inst.result = id
  u : ∀ i, m.used i = (wu i).map useIds

/-- id defined by a live instruction. -/
def Def (w : World) (id : Id) : Prop := id ≠ 0 ∧ ∃ i inst, w i = some inst ∧ inst.result = id

theorem Inv.defs_isSome {w wu : World} {m : Mgr} (h : Inv w wu m) {id : Id} :
    (m.defs id).isSome ↔ Def w id := by
  rw [Option.isSome_iff_exists]
  constructor
  · rintro ⟨i, hi⟩
    obtain ⟨h0, inst, h1, h2⟩ := (h.d id i).mp hi
    exact ⟨h0, i, inst, h1, h2⟩
  · rintro ⟨h0, i, inst, h1, h2⟩
    exact ⟨i, (h.d id i).mpr ⟨h0, inst, h1, h2⟩⟩

/-! ## edits other than replacement -/

theorem inv_change {w : World} {m m' : Mgr} {i : Ptr} {inst inst' : Inst} (h : Inv w w m)
    (hi : w i = some inst) (hr : inst'.result = inst.result) (hR : R m')
    (hd : m'.defs = m.defs) (hu : m'.used = upd m.used i (some (useIds inst'))) :
    Inv (upd w i (some inst')) (upd w i (some inst')) m' := by
  refine ⟨hR, ?_, ?_⟩
  · intro id j
    rw [hd, h.d]
    by_cases hj : j = i
    · subst hj
      rw [upd_self, hi]
      simp only [Option.some.injEq, exists_eq_left', hr]
    · rw [upd_other _ _ hj]
  · intro j
    rw [hu]
    by_cases hj : j = i
    · subst hj; rw [upd_self, upd_self]; rfl
    · rw [upd_other _ _ hj, upd_other _ _ hj, h.u]

theorem add_spec {w : World} {m : Mgr} {i : Ptr} {inst : Inst} (h : Inv w w m)
    (hi : w i = none)
    (hf : inst.result ≠ 0 → ¬ Def w inst.result)
    (hn : inst.result ≠ 0 → ∀ u ui, w u = some ui → inst.result ∉ useIds ui)
    (hu : ∀ id ∈ useIds inst, (id ≠ 0 ∧ id = inst.result) ∨ Def w id) :
    ∃ m', analyzeDefUse w m i inst = some m' ∧
      Inv (upd w i (some inst)) (upd w i (some inst)) m' := by
  have hused : m.used i = none := by rw [h.u, hi]; rfl
  have hdn : inst.result ≠ 0 → m.defs inst.result = none := by
    intro h0
    have := hf h0
    rw [← h.defs_isSome] at this
    simpa using this
  obtain ⟨h1, h2, h3⟩ := analyzeDef_fresh (w := w) h.r hused hdn (by
    intro h0 u ids hids
    rw [h.u] at hids
    obtain ⟨ui, hui, rfl⟩ := Option.map_eq_some_iff.mp hids
    exact hn h0 u ui hui)
  obtain ⟨m', h4, h5, h6, h7⟩ := analyzeUse_spec (i := i) (inst := inst) h1 (by
    intro id hid
    rw [h3]
    split
    · rfl
    · rename_i hc
      rcases hu id hid with ⟨h8, h9⟩ | h8
      · exact absurd ⟨h9 ▸ h8, h9⟩ hc
      · exact h.defs_isSome.mpr h8)
  refine ⟨m', h4, h5, ?_, ?_⟩
  · intro id j
    rw [h6, h3]
    by_cases hj : j = i
    · subst hj
      rw [upd_self]
      simp only [Option.some.injEq, exists_eq_left']
      split
      · rename_i hc; exact ⟨fun _ => ⟨hc.2 ▸ hc.1, hc.2.symm⟩, fun _ => rfl⟩
      · rename_i hc
        rw [h.d, hi]
        constructor
        · rintro ⟨_, inst', hx, _⟩; cases hx
        · rintro ⟨h0, hx⟩; exact absurd ⟨hx ▸ h0, hx.symm⟩ hc
    · rw [upd_other _ _ hj]
      split
      · rename_i hc
        constructor
        · intro hx; cases hx; exact absurd rfl hj
        · rintro ⟨h0, inst', h8, h9⟩
          exact absurd ⟨hc.1, j, inst', h8, h9.trans hc.2⟩ (hf hc.1)
      · exact h.d id j
  · intro j
    rw [h7, h2]
    by_cases hj : j = i
    · subst hj; rw [upd_self, upd_self]; rfl
    · rw [upd_other _ _ hj, upd_other _ _ hj, h.u]

theorem kill_spec {w : World} {m : Mgr} {i : Ptr} {inst : Inst} (h : Inv w w m)
    (hi : w i = some inst) : Inv (upd w i none) (upd w i none) (clearInst m i inst) := by
  obtain ⟨h1, h2, h3⟩ := clearInst_R (inst := inst) h.r (i := i) (by rw [h.u, hi]; rfl) (by
    intro id
    rw [h.d, hi]
    simp only [Option.some.injEq, exists_eq_left'])
  refine ⟨h1, ?_, ?_⟩
  · intro id j
    rw [h3]
    split
    · rename_i hc
      constructor
      · intro hx; cases hx
      · rintro ⟨h0, inst', h4, h5⟩
        by_cases hj : j = i
        · subst hj; rw [upd_self] at h4; cases h4
        · rw [upd_other _ _ hj] at h4
          have ha := (h.d id j).mpr ⟨h0, inst', h4, h5⟩
          have hb := (h.d id i).mpr ⟨h0, inst, hi, hc.2.symm⟩
          rw [ha] at hb; cases hb; exact absurd rfl hj
    · rename_i hc
      rw [h.d]
      by_cases hj : j = i
      · subst hj
        rw [upd_self, hi]
        simp only [Option.some.injEq, exists_eq_left', reduceCtorEq, false_and, exists_false,
          and_false, iff_false]
        rintro ⟨h0, hx⟩
        exact hc ⟨hx ▸ h0, hx.symm⟩
      · rw [upd_other _ _ hj]
  · intro j
    rw [h2]
    by_cases hj : j = i
    · subst hj; rw [upd_self, upd_self]; rfl
    · rw [upd_other _ _ hj, upd_other _ _ hj, h.u]

theorem edit_spec {w : World} {m : Mgr} {i : Ptr} {inst inst' : Inst} (h : Inv w w m)
    (hi : w i = some inst) (hr : inst'.result = inst.result)
    (hu : ∀ id ∈ useIds inst', Def w id) :
    ∃ m', analyzeUse (eraseUses m i) i inst' = some m' ∧
      Inv (upd w i (some inst')) (upd w i (some inst')) m' := by
  obtain ⟨m', h1, h2, h3, h4⟩ := analyzeUse_spec (i := i) (inst := inst') (eraseUses_R h.r i) (by
    intro id hid
    rw [eraseUses_defs]; exact h.defs_isSome.mpr (hu id hid))
  refine ⟨m', h1, inv_change h hi hr h2 (by rw [h3, eraseUses_defs]) ?_⟩
  rw [h4, eraseUses_used]
  funext x
  unfold upd
  split <;> rfl

theorem reuse_spec {w : World} {m : Mgr} {i : Ptr} {inst inst' : Inst} (h : Inv w w m)
    (hi : w i = some inst) (hr : inst'.result = inst.result)
    (hu : ∀ id ∈ useIds inst', Def w id) :
    ∃ m', analyzeUse m i inst' = some m' ∧
      Inv (upd w i (some inst')) (upd w i (some inst')) m' := by
  obtain ⟨m', h1, h2, h3, h4⟩ := analyzeUse_spec (i := i) (inst := inst') h.r (by
    intro id hid
    exact h.defs_isSome.mpr (hu id hid))
  exact ⟨m', h1, inv_change h hi hr h2 h3 h4⟩

theorem update_spec {w : World} {m : Mgr} {i : Ptr} {inst inst' : Inst} (h : Inv w w m)
    (hi : w i = some inst) (hr : inst'.result = inst.result)
    (hu : ∀ id ∈ useIds inst', Def w id) (w' : World) :
    ∃ m', updateDefUse w' m i inst' = some m' ∧
      Inv (upd w i (some inst')) (upd w i (some inst')) m' := by
  unfold updateDefUse
  dsimp only
  split
  · rename_i h0
    rw [(h.d inst'.result i).mpr ⟨h0, inst, hi, hr.symm⟩]
    exact reuse_spec h hi hr hu
  · exact reuse_spec h hi hr hu

/-! ## whole modules -/

theorem defPass_spec (w : World) (is : List (Ptr × Inst)) (m : Mgr)
    (hu : ∀ i, m.used i = none) (hus : m.users = [])
    (hfresh : ∀ p ∈ is, p.2.result ≠ 0 → m.defs p.2.result = none)
    (hnd : (is.filter (fun p => p.2.result ≠ 0)).Pairwise (fun a b => a.2.result ≠ b.2.result)) :
    (∀ i, (defPass w is m).used i = none) ∧ (defPass w is m).users = [] ∧
      ∀ id i, (defPass w is m).defs id = some i ↔
        m.defs id = some i ∨ (id ≠ 0 ∧ ∃ inst, (i, inst) ∈ is ∧ inst.result = id) := by
  induction is generalizing m with
  | nil => exact ⟨hu, hus, by simp [defPass]⟩
  | cons p is ih =>
    obtain ⟨i, inst⟩ := p
    have hA := analyzeDef_fresh (w := w) (m := m) (i := i) (inst := inst)
      ⟨by simp [hus, hu], by simp [hus]⟩ (hu i) (hfresh (i, inst) List.mem_cons_self)
      (by intro _ u ids h; rw [hu] at h; cases h)
    have hus' : (analyzeDef w m i inst).users = [] := by
      unfold analyzeDef
      split
      · rename_i h0
        rw [hfresh (i, inst) List.mem_cons_self h0]; exact hus
      · rw [clearInst_none (hu i)]; exact hus
    unfold defPass
    have hnd' : (is.filter (fun p => p.2.result ≠ 0)).Pairwise
        (fun a b => a.2.result ≠ b.2.result) :=
      hnd.sublist ((List.sublist_cons_self _ _).filter _)
    obtain ⟨h1, h2, h3⟩ := ih (analyzeDef w m i inst) (by rw [hA.2.1]; exact hu) hus' (by
      intro p hp h0
      rw [hA.2.2, if_neg, hfresh p (List.mem_cons_of_mem _ hp) h0]
      rintro ⟨h4, h5⟩
      have : List.filter (fun p : Ptr × Inst => decide (p.2.result ≠ 0)) ((i, inst) :: is) =
          (i, inst) :: is.filter (fun p => decide (p.2.result ≠ 0)) :=
        List.filter_cons_of_pos (by simpa using h4)
      rw [this, List.pairwise_cons] at hnd
      exact hnd.1 p (List.mem_filter.mpr ⟨hp, by simpa using h0⟩) h5.symm) hnd'
    refine ⟨h1, h2, ?_⟩
    intro id j
    rw [h3, hA.2.2]
    split
    · rename_i hc
      have hm : m.defs id = none := by
        rw [hc.2]; exact hfresh (i, inst) List.mem_cons_self hc.1
      rw [hm]
      constructor
      · rintro (h4 | ⟨h4, inst', h5, h6⟩)
        · cases h4
          exact Or.inr ⟨hc.2 ▸ hc.1, inst, List.mem_cons_self, hc.2.symm⟩
        · exact Or.inr ⟨h4, inst', List.mem_cons_of_mem _ h5, h6⟩
      · rintro (h4 | ⟨h4, inst', h5, h6⟩)
        · cases h4
        · rcases List.mem_cons.mp h5 with h7 | h7
          · cases h7; exact Or.inl rfl
          · exact Or.inr ⟨h4, inst', h7, h6⟩
    · rename_i hc
      constructor
      · rintro (h4 | ⟨h4, inst', h5, h6⟩)
        · exact Or.inl h4
        · exact Or.inr ⟨h4, inst', List.mem_cons_of_mem _ h5, h6⟩
      · rintro (h4 | ⟨h4, inst', h5, h6⟩)
        · exact Or.inl h4
        · rcases List.mem_cons.mp h5 with h7 | h7
          · cases h7; exact absurd ⟨h6 ▸ h4, h6.symm⟩ hc
          · exact Or.inr ⟨h4, inst', h7, h6⟩

theorem usePass_spec (is : List (Ptr × Inst)) (m : Mgr) (hR : R m)
    (hn : ∀ p ∈ is, m.used p.1 = none) (hnd : (is.map (·.1)).Nodup)
    (hd : ∀ p ∈ is, ∀ id ∈ useIds p.2, (m.defs id).isSome) :
    ∃ m', usePass is m = some m' ∧ R m' ∧ m'.defs = m.defs ∧
      (∀ p ∈ is, m'.used p.1 = some (useIds p.2)) ∧
      ∀ i, i ∉ is.map (·.1) → m'.used i = m.used i := by
  induction is generalizing m with
  | nil => exact ⟨m, rfl, hR, rfl, by simp, by simp⟩
  | cons p is ih =>
    obtain ⟨i, inst⟩ := p
    rw [List.map_cons, List.nodup_cons] at hnd
    obtain ⟨m1, h1, h2, h3, h4⟩ := analyzeUse_spec (i := i) (inst := inst) hR
      (hd (i, inst) List.mem_cons_self)
    have hne : ∀ p ∈ is, p.1 ≠ i := fun p hp he =>
      hnd.1 (List.mem_map.mpr ⟨p, hp, he⟩)
    obtain ⟨m', h5, h6, h7, h8, h9⟩ := ih m1 h2 (by
      intro p hp
      rw [h4, upd_other _ _ (hne p hp)]
      exact hn p (List.mem_cons_of_mem _ hp)) hnd.2 (by
      intro p hp
      rw [h3]; exact hd p (List.mem_cons_of_mem _ hp))
    refine ⟨m', ?_, h6, h7.trans h3, ?_, ?_⟩
    · unfold usePass; rw [h1]; exact h5
    · intro p hp
      rcases List.mem_cons.mp hp with h | h
      · subst h
        dsimp only
        rw [h9 i hnd.1, h4, upd_self]
      · exact h8 p h
    · intro j hj
      simp only [List.map_cons, List.mem_cons, not_or] at hj
      rw [h9 j hj.2, h4, upd_other _ _ hj.1]

theorem lookup_iff {is : List (Ptr × Inst)} (hnd : (is.map (·.1)).Nodup) {i : Ptr} {inst : Inst} :
    is.lookup i = some inst ↔ (i, inst) ∈ is := by
  induction is with
  | nil => simp
  | cons p is ih =>
    obtain ⟨j, jn⟩ := p
    rw [List.map_cons, List.nodup_cons] at hnd
    rw [List.lookup_cons]
    by_cases hij : i = j
    · subst hij
      simp only [BEq.rfl, Option.some.injEq, List.mem_cons, Prod.mk.injEq, true_and]
      constructor
      · exact fun h => Or.inl h.symm
      · rintro (h | h)
        · exact h.symm
        · exact absurd (List.mem_map.mpr ⟨_, h, rfl⟩) hnd.1
    · rw [beq_false_of_ne hij]
      dsimp only
      rw [ih hnd.2, List.mem_cons]
      simp [hij]

theorem build_spec (is : List (Ptr × Inst)) (hnd : (is.map (·.1)).Nodup)
    (hres : (is.filter (fun p => p.2.result ≠ 0)).Pairwise
      (fun a b => a.2.result ≠ b.2.result))
    (hd : ∀ p ∈ is, ∀ id ∈ useIds p.2, Def (worldOf is) id) :
    ∃ m, build is = some m ∧ Inv (worldOf is) (worldOf is) m := by
  obtain ⟨h1, h2, h3⟩ := defPass_spec (worldOf is) is {} (fun _ => rfl) rfl
    (fun _ _ _ => rfl) hres
  have hD : ∀ id i, (defPass (worldOf is) is {}).defs id = some i ↔
      id ≠ 0 ∧ ∃ inst, worldOf is i = some inst ∧ inst.result = id := by
    intro id i
    rw [h3]
    simp only [reduceCtorEq, false_or, worldOf, lookup_iff hnd]
  obtain ⟨m, h4, h5, h6, h7, h8⟩ := usePass_spec is (defPass (worldOf is) is {})
    ⟨by simp [h2, h1], by simp [h2]⟩ (fun p _ => h1 p.1) hnd (by
      intro p hp id hid
      obtain ⟨h0, i, inst, h9, h10⟩ := hd p hp id hid
      rw [(hD id i).mpr ⟨h0, inst, h9, h10⟩]; rfl)
  refine ⟨m, h4, h5, by rw [h6]; exact hD, ?_⟩
  intro i
  cases hw : worldOf is i with
  | none =>
    rw [h8]
    · exact h1 i
    · intro hmem
      obtain ⟨p, hp, rfl⟩ := List.mem_map.mp hmem
      have := (lookup_iff hnd (i := p.1) (inst := p.2)).mpr hp
      unfold worldOf at hw
      rw [hw] at this; cases this
  | some inst =>
    exact h7 (i, inst) ((lookup_iff hnd).mp hw)

end Verif.DefUse
