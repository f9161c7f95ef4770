import Verif.DefUse.Lemmas

set_option linter.unusedSimpArgs false
set_option linter.unusedVariables false

namespace Verif.DefUse

def hdr (inst : Inst) : Nat :=
  (if inst.result ≠ 0 then 1 else 0) + (if inst.type ≠ 0 then 1 else 0)

/-- All operands whose index is in `S` replaced. -/
def setAt (S : Nat → Bool) (after : Id) (inst : Inst) : Inst :=
  { inst with
    type := if inst.type ≠ 0 ∧ S 0 = true then after else inst.type
    ins := inst.ins.mapIdx fun j p => if S (hdr inst + j) then (p.1, after) else p }

theorem operands_hdr (inst : Inst) (k : Nat) (h : hdr inst ≤ k) :
    inst.operands[k]? = inst.ins[k - hdr inst]? := by
  unfold Inst.operands hdr at *
  by_cases h1 : inst.type = 0 <;> by_cases h2 : inst.result = 0 <;>
    simp [h1, h2] at h ⊢
  · cases k with
    | zero => omega
    | succ k => simp
  · cases k with
    | zero => omega
    | succ k => simp
  · match k with
    | 0 => omega
    | 1 => omega
    | k + 2 => simp

theorem operands_low (inst : Inst) (k : Nat) (h : k < hdr inst) :
    (inst.type ≠ 0 ∧ k = 0 ∧ inst.operands[k]? = some (.typeId, inst.type)) ∨
    inst.operands[k]? = some (.resultId, inst.result) := by
  unfold Inst.operands hdr at *
  by_cases h1 : inst.type = 0 <;> by_cases h2 : inst.result = 0 <;>
    simp [h1, h2] at h ⊢
  · simp [h]
  · simp [h]
  · match k with
    | 0 => simp
    | 1 => simp

theorem setUse_eq {inst : Inst} {k : Nat} {after : Id} {kd : Kind} {wd : Nat}
    (h : inst.operands[k]? = some (kd, wd)) (hk : isUseType kd = true) :
    setUse inst k after = some (setAt (· == k) after inst) := by
  unfold setUse
  change (if k < hdr inst then _ else _) = _
  split
  · rename_i hlt
    rcases operands_low inst k hlt with ⟨h1, h2, _⟩ | h1
    · rw [if_pos ⟨h1, h2⟩]
      unfold setAt
      subst h2
      have : inst.ins.mapIdx (fun j p => if (hdr inst + j == 0) = true then (p.1, after) else p) =
          inst.ins := by
        apply List.ext_getElem?
        intro j
        rw [List.getElem?_mapIdx]
        have : (hdr inst + j == 0) = false := by
          apply beq_false_of_ne; omega
        rw [this]; simp
      rw [this]
      simp [h1]
    · rw [h] at h1; cases h1; cases hk
  · rename_i hge
    have hge : hdr inst ≤ k := by omega
    rw [operands_hdr inst k hge] at h
    change (match inst.ins[k - hdr inst]? with
      | none => none
      | some (k', _) => some { inst with ins := inst.ins.set (k - hdr inst) (k', after) }) = _
    rw [h]
    dsimp only
    unfold setAt
    have ht : (if inst.type ≠ 0 ∧ (0 == k) = true then after else inst.type) = inst.type := by
      rw [if_neg]
      rintro ⟨h1, h2⟩
      have h2 := eq_of_beq h2
      unfold hdr at hge
      rw [if_pos h1] at hge
      omega
    have hi : inst.ins.set (k - hdr inst) (kd, after) =
        inst.ins.mapIdx (fun j p => if (hdr inst + j == k) = true then (p.1, after) else p) := by
      apply List.ext_getElem?
      intro j
      rw [List.getElem?_mapIdx, List.getElem?_set]
      split
      · rename_i hj
        subst hj
        have : (hdr inst + (k - hdr inst) == k) = true := by
          rw [beq_iff_eq]; omega
        rw [this, h]
        have hlt := (List.getElem?_eq_some_iff.mp h).1
        simp [hlt]
      · rename_i hj
        have : (hdr inst + j == k) = false := by
          apply beq_false_of_ne; omega
        rw [this]; simp
    rw [ht, hi]

theorem setAt_type_zero {S : Nat → Bool} {after : Id} {inst : Inst} (ha : after ≠ 0) :
    (setAt S after inst).type = 0 ↔ inst.type = 0 := by
  unfold setAt
  dsimp only
  split
  · rename_i h; simp [ha, h.1]
  · rfl

theorem hdr_setAt {S : Nat → Bool} {after : Id} {inst : Inst} (ha : after ≠ 0) :
    hdr (setAt S after inst) = hdr inst := by
  have := setAt_type_zero (S := S) (inst := inst) ha
  unfold hdr
  by_cases h : inst.type = 0
  · simp [this.mpr h, h, setAt]
  · have : (setAt S after inst).type ≠ 0 := fun h1 => h (this.mp h1)
    rw [if_pos h, if_pos this]
    rfl

theorem setAt_comp {S T : Nat → Bool} {after : Id} {inst : Inst} (ha : after ≠ 0) :
    setAt S after (setAt T after inst) = setAt (fun k => S k || T k) after inst := by
  have h1 := hdr_setAt (S := T) (inst := inst) ha
  have h2 := setAt_type_zero (S := T) (inst := inst) ha
  have e : ∀ x : Inst, ∀ U, setAt U after x = { x with
    type := if x.type ≠ 0 ∧ U 0 = true then after else x.type
    ins := x.ins.mapIdx fun j p => if U (hdr x + j) then (p.1, after) else p } := fun _ _ => rfl
  rw [e _ S, h1, e _ (fun k => S k || T k)]
  congr 1
  · by_cases h : inst.type = 0
    · rw [if_neg (fun c => c.1 (h2.mpr h)), if_neg (fun c => c.1 h), h2.mpr h, h]
    · have h' : (setAt T after inst).type ≠ 0 := fun c => h (h2.mp c)
      cases hs : S 0
      · cases ht : T 0 <;> simp [setAt, h, ht, ha]
      · simp [h, h']
  · show (List.mapIdx _ (inst.ins.mapIdx _)) = _
    apply List.ext_getElem?
    intro j
    simp only [List.getElem?_mapIdx, Option.map_map]
    cases inst.ins[j]? with
    | none => rfl
    | some p =>
      simp only [Option.map_some, Function.comp]
      cases S (hdr inst + j) <;> cases T (hdr inst + j) <;> simp

theorem setAt_kinds {S : Nat → Bool} {after : Id} {inst : Inst} (ha : after ≠ 0) :
    (setAt S after inst).operands.map (·.1) = inst.operands.map (·.1) := by
  have h2 := setAt_type_zero (S := S) (inst := inst) ha
  have hi : (setAt S after inst).ins.map (·.1) = inst.ins.map (·.1) := by
    apply List.ext_getElem?
    intro j
    simp only [setAt, List.getElem?_map, List.getElem?_mapIdx, Option.map_map]
    cases inst.ins[j]? with
    | none => rfl
    | some p => simp only [Option.map_some, Function.comp]; split <;> rfl
  have hr : (setAt S after inst).result = inst.result := rfl
  unfold Inst.operands
  rw [List.map_append, List.map_append, List.map_append, List.map_append, hi, hr]
  by_cases h : inst.type = 0
  · have h' := h2.mpr h
    simp [h, h']
  · have h' : (setAt S after inst).type ≠ 0 := fun c => h (h2.mp c)
    simp [h, h']

theorem setAt_mem {S : Nat → Bool} {after : Id} {inst : Inst} {p : Kind × Nat}
    (h : p ∈ (setAt S after inst).operands) : p ∈ inst.operands ∨ p.2 = after := by
  unfold Inst.operands at h ⊢
  rw [List.mem_append, List.mem_append] at h ⊢
  rcases h with (h | h) | h
  · split at h
    · rename_i h0
      simp only [List.mem_singleton] at h
      subst h
      by_cases hc : inst.type ≠ 0 ∧ S 0 = true
      · right
        show (setAt S after inst).type = after
        simp only [setAt, if_pos hc]
      · have ht : (setAt S after inst).type = inst.type := by simp only [setAt, if_neg hc]
        rw [ht] at h0 ⊢
        left; left; left
        rw [if_pos h0]; simp
    · cases h
  · exact Or.inl (Or.inl (Or.inr h))
  · unfold setAt at h
    dsimp only at h
    rw [List.mem_iff_getElem?] at h
    obtain ⟨j, hj⟩ := h
    rw [List.getElem?_mapIdx] at hj
    obtain ⟨q, hq, he⟩ := Option.map_eq_some_iff.mp hj
    split at he
    · subst he; exact Or.inr rfl
    · subst he; exact Or.inl (Or.inr (List.mem_iff_getElem?.mpr ⟨j, hq⟩))

theorem setAt_useIds {S : Nat → Bool} {after : Id} {inst : Inst} {id : Id}
    (h : id ∈ useIds (setAt S after inst)) : id ∈ useIds inst ∨ id = after := by
  unfold useIds at h ⊢
  obtain ⟨p, hp, rfl⟩ := List.mem_map.mp h
  obtain ⟨h1, h2⟩ := List.mem_filter.mp hp
  rcases setAt_mem h1 with h3 | h3
  · exact Or.inl (List.mem_map.mpr ⟨p, List.mem_filter.mpr ⟨h3, h2⟩, rfl⟩)
  · exact Or.inr h3

theorem setAt_false {after : Id} {inst : Inst} {S : Nat → Bool} (h : ∀ k, S k = false) :
    setAt S after inst = inst := by
  have : inst.ins.mapIdx (fun _ p => p) = inst.ins := by
    apply List.ext_getElem?
    intro j
    rw [List.getElem?_mapIdx]; simp
  unfold setAt
  simp [h, this]

theorem def_upd {w : World} {u : Ptr} {inst inst' : Inst} (hu : w u = some inst)
    (hr : inst'.result = inst.result) (id : Id) : Def (upd w u (some inst')) id ↔ Def w id := by
  unfold Def
  constructor
  · rintro ⟨h0, i, x, h1, h2⟩
    by_cases hi : i = u
    · subst hi; rw [upd_self] at h1; cases h1
      exact ⟨h0, i, inst, hu, hr ▸ h2⟩
    · rw [upd_other _ _ hi] at h1; exact ⟨h0, i, x, h1, h2⟩
  · rintro ⟨h0, i, x, h1, h2⟩
    by_cases hi : i = u
    · subst hi; rw [hu] at h1; cases h1
      exact ⟨h0, i, inst', upd_self _ _ _, hr.trans h2⟩
    · exact ⟨h0, i, x, by rw [upd_other _ _ hi]; exact h1, h2⟩

theorem replaceLoop_spec (after : Id) (ps : List (Ptr × Nat)) (prev : Option Ptr) (w : World)
    (m : Mgr) (h : Inv w w m) (ha : Def w after)
    (hp : ∀ p ∈ ps, ∃ inst, w p.1 = some inst ∧ (∃ kd wd, inst.operands[p.2]? = some (kd, wd) ∧
      isUseType kd = true) ∧ ∀ id ∈ useIds inst, Def w id) :
    ∃ m', replaceLoop after ps prev w m =
        some (fun u => (w u).map (setAt (fun k => decide ((u, k) ∈ ps)) after), m') ∧
      Inv (fun u => (w u).map (setAt (fun k => decide ((u, k) ∈ ps)) after))
        (fun u => (w u).map (setAt (fun k => decide ((u, k) ∈ ps)) after)) m' := by
  induction ps generalizing prev w m with
  | nil =>
    have : (fun u => (w u).map (setAt (fun k => decide ((u, k) ∈ ([] : List (Ptr × Nat)))) after)) = w := by
      funext u
      cases w u with
      | none => rfl
      | some x => simp [setAt_false]
    rw [this]
    exact ⟨m, rfl, h⟩
  | cons p ps ih =>
    obtain ⟨user, index⟩ := p
    obtain ⟨inst, hi, ⟨kd, wd, ho, hk⟩, hd⟩ := hp (user, index) List.mem_cons_self
    dsimp only at hi ho
    have hids : ∀ id ∈ useIds (setAt (· == index) after inst), Def w id := by
      intro id hid
      rcases setAt_useIds hid with h1 | h1
      · exact hd id h1
      · rw [h1]; exact ha
    have hstep : ∃ m1, analyzeUse (if prev = some user then m else eraseUses m user) user
        (setAt (· == index) after inst) = some m1 ∧
        Inv (upd w user (some (setAt (· == index) after inst)))
          (upd w user (some (setAt (· == index) after inst))) m1 := by
      split
      · exact reuse_spec h hi rfl hids
      · exact edit_spec h hi rfl hids
    obtain ⟨m1, h1, h2⟩ := hstep
    have hdef := def_upd (inst' := setAt (· == index) after inst) hi rfl
    obtain ⟨m', h3, h4⟩ := ih (some user) (upd w user (some (setAt (· == index) after inst))) m1 h2
      ((hdef after).mpr ha) (by
        intro p hpm
        obtain ⟨x, hx, ⟨kd', wd', ho', hk'⟩, hd'⟩ := hp p (List.mem_cons_of_mem _ hpm)
        by_cases hpu : p.1 = user
        · rw [hpu, upd_self]
          rw [hpu, hi] at hx
          cases hx
          refine ⟨_, rfl, ?_, fun id hid => (hdef id).mpr (hids id hid)⟩
          have hkinds := congrArg (fun l : List Kind => l[p.2]?)
            (setAt_kinds (S := (· == index)) (inst := inst) ha.1)
          simp only [List.getElem?_map, ho', Option.map_some] at hkinds
          obtain ⟨q, hq, hqk⟩ := Option.map_eq_some_iff.mp hkinds
          exact ⟨q.1, q.2, hq, by rw [hqk]; exact hk'⟩
        · rw [upd_other _ _ hpu]
          exact ⟨x, hx, ⟨kd', wd', ho', hk'⟩, fun id hid => (hdef id).mpr (hd' id hid)⟩)
    have hw : (fun u => (upd w user (some (setAt (· == index) after inst)) u).map
        (setAt (fun k => decide ((u, k) ∈ ps)) after)) =
        (fun u => (w u).map (setAt (fun k => decide ((u, k) ∈ (user, index) :: ps)) after)) := by
      funext u
      by_cases hu : u = user
      · subst hu
        rw [upd_self, hi]
        simp only [Option.map_some]
        rw [setAt_comp ha.1]
        congr 2
        funext k
        by_cases hki : k = index <;> simp [hki]
      · rw [upd_other _ _ hu]
        cases w u with
        | none => rfl
        | some x =>
          simp only [Option.map_some]
          congr 2
          funext k
          simp [hu]
    rw [hw] at h3 h4
    refine ⟨m', ?_, h4⟩
    unfold replaceLoop
    dsimp only
    rw [hi]
    dsimp only
    rw [setUse_eq ho hk]
    dsimp only
    rw [h1]
    exact h3

/-! ## queries -/

theorem useIndices_mem (id : Id) (inst : Inst) (k : Nat) :
    k ∈ useIndices id inst ↔ ∃ kd, inst.operands[k]? = some (kd, id) ∧ isUseType kd = true := by
  unfold useIndices
  simp only [List.mem_map, List.mem_filter, Bool.and_eq_true, decide_eq_true_eq]
  constructor
  · rintro ⟨⟨⟨kd, wd⟩, j⟩, ⟨h1, ⟨h2, h3⟩, h4⟩, h5⟩
    dsimp only at h2 h3 h4 h5
    subst h5 h4
    rw [List.mem_zipIdx_iff_getElem?] at h1
    refine ⟨kd, h1, ?_⟩
    cases kd <;> simp_all [isIdType, isUseType]
  · rintro ⟨kd, h1, h2⟩
    refine ⟨((kd, id), k), ⟨?_, ⟨?_, ?_⟩, ?_⟩, rfl⟩
    · rw [List.mem_zipIdx_iff_getElem?]; exact h1
    · cases kd <;> simp_all [isIdType, isUseType]
    · cases kd <;> simp_all [isIdType, isUseType]
    · rfl

theorem useIndices_nodup (id : Id) (inst : Inst) : (useIndices id inst).Nodup := by
  unfold useIndices
  apply List.Nodup.sublist (List.filter_sublist.map _)
  rw [List.zipIdx_map_snd]
  exact List.nodup_range'

theorem mem_useIds (id : Id) (inst : Inst) :
    id ∈ useIds inst ↔ ∃ k, k ∈ useIndices id inst := by
  unfold useIds
  simp only [List.mem_map, List.mem_filter, useIndices_mem]
  constructor
  · rintro ⟨⟨kd, wd⟩, ⟨h1, h2⟩, rfl⟩
    obtain ⟨k, hk⟩ := List.mem_iff_getElem?.mp h1
    exact ⟨k, kd, hk, h2⟩
  · rintro ⟨k, kd, h1, h2⟩
    exact ⟨(kd, id), ⟨List.mem_iff_getElem?.mpr ⟨k, h1⟩, h2⟩, rfl⟩

theorem users_of {w : World} {m : Mgr} (h : Inv w w m) {id : Id} (hd : Def w id) :
    ∃ us, m.forEachUser id = some us ∧ us.Nodup ∧
      ∀ u, u ∈ us ↔ ∃ inst, w u = some inst ∧ id ∈ useIds inst := by
  obtain ⟨d, hdd⟩ := Option.isSome_iff_exists.mp (h.defs_isSome.mpr hd)
  refine ⟨_, by unfold Mgr.forEachUser; rw [hdd], ?_, ?_⟩
  · rw [List.Nodup, List.pairwise_map]
    refine List.Pairwise.imp_of_mem ?_ (h.r.nodup.filter _)
    intro a b ha hb hab he
    have h1 := (List.mem_filter.mp ha).2
    have h2 := (List.mem_filter.mp hb).2
    simp only [decide_eq_true_eq] at h1 h2
    exact hab (Prod.ext (h1.trans h2.symm) he)
  · intro u
    simp only [List.mem_map, List.mem_filter, decide_eq_true_eq]
    constructor
    · rintro ⟨⟨d', u'⟩, ⟨h1, h2⟩, h3⟩
      dsimp only at h2 h3
      subst h2 h3
      obtain ⟨ids, id', h4, h5, h6⟩ := (h.r.mem _ _).mp h1
      rw [h.u] at h4
      obtain ⟨inst, h7, rfl⟩ := Option.map_eq_some_iff.mp h4
      have : id' = id := by
        obtain ⟨_, x, hx, hxe⟩ := (h.d _ _).mp h6
        obtain ⟨_, y, hy, hye⟩ := (h.d _ _).mp hdd
        rw [hx] at hy; cases hy
        rw [← hxe, ← hye]
      subst this
      exact ⟨inst, h7, h5⟩
    · rintro ⟨inst, h1, h2⟩
      exact ⟨(d, u), ⟨(h.r.mem _ _).mpr ⟨useIds inst, id, by rw [h.u, h1]; rfl, h2, hdd⟩, rfl⟩, rfl⟩

theorem uses_of {w : World} {m : Mgr} (h : Inv w w m) {id : Id} (hd : Def w id) :
    ∃ ps, m.forEachUse w id = some ps ∧ ps.Nodup ∧
      ∀ u k, (u, k) ∈ ps ↔ ∃ inst, w u = some inst ∧ k ∈ useIndices id inst := by
  obtain ⟨us, h1, h2, h3⟩ := users_of h hd
  refine ⟨_, by unfold Mgr.forEachUse; rw [h1], ?_, ?_⟩
  · rw [List.Nodup, List.pairwise_flatMap]
    constructor
    · intro u _
      rw [List.pairwise_map]
      refine (useIndices_nodup _ _).imp ?_
      intro a b hab he
      exact hab (by cases he; rfl)
    · refine h2.imp ?_
      intro a b hab x hx y hy he
      obtain ⟨k1, _, rfl⟩ := List.mem_map.mp hx
      obtain ⟨k2, _, rfl⟩ := List.mem_map.mp hy
      exact hab (by cases he; rfl)
  · intro u k
    simp only [List.mem_flatMap, List.mem_map, Prod.mk.injEq]
    constructor
    · rintro ⟨u', hu', k', hk', rfl, rfl⟩
      obtain ⟨inst, hi, _⟩ := (h3 _).mp hu'
      rw [hi] at hk'
      exact ⟨inst, hi, hk'⟩
    · rintro ⟨inst, hi, hk⟩
      refine ⟨u, (h3 u).mpr ⟨inst, hi, (mem_useIds _ _).mpr ⟨k, hk⟩⟩, k, ?_, rfl, rfl⟩
      rw [hi]; exact hk

/-! ## replacement of ids -/

/-- `before` replaced by `after` in every operand that refers to an id. -/
def renameInst (before after : Id) (inst : Inst) : Inst :=
  { inst with
    type := if inst.type = before then after else inst.type
    ins := inst.ins.map fun p => if isUseType p.1 ∧ p.2 = before then (p.1, after) else p }

theorem setAt_rename {before after : Id} (hb : before ≠ 0) (inst : Inst) :
    setAt (fun k => decide (k ∈ useIndices before inst)) after inst =
      renameInst before after inst := by
  unfold setAt renameInst
  congr 1
  · by_cases h : inst.type = before
    · rw [if_pos h, if_pos]
      refine ⟨h ▸ hb, ?_⟩
      rw [decide_eq_true_eq, useIndices_mem]
      refine ⟨.typeId, ?_, rfl⟩
      unfold Inst.operands
      rw [if_pos (h ▸ hb), ← h]
      rfl
    · rw [if_neg h, if_neg]
      rintro ⟨h1, h2⟩
      rw [decide_eq_true_eq, useIndices_mem] at h2
      obtain ⟨kd, h3, h4⟩ := h2
      unfold Inst.operands at h3
      rw [if_pos h1] at h3
      simp only [List.cons_append, List.nil_append, List.getElem?_cons_zero, Option.some.injEq,
        Prod.mk.injEq] at h3
      exact h h3.2
  · apply List.ext_getElem?
    intro j
    rw [List.getElem?_mapIdx, List.getElem?_map]
    cases hj : inst.ins[j]? with
    | none => rfl
    | some p =>
      have : (decide (hdr inst + j ∈ useIndices before inst) = true) ↔
          (isUseType p.1 = true ∧ p.2 = before) := by
        rw [decide_eq_true_eq, useIndices_mem, operands_hdr _ _ (by omega)]
        rw [show hdr inst + j - hdr inst = j by omega, hj]
        constructor
        · rintro ⟨kd, h1, h2⟩
          cases h1; exact ⟨h2, rfl⟩
        · rintro ⟨h1, h2⟩
          exact ⟨p.1, by rw [← h2], h1⟩
      simp only [Option.map_some, this]

theorem replace_spec {w : World} {m : Mgr} (h : Inv w w m) {before after : Id}
    (pred : Ptr → Bool) (hne : before ≠ after) (ha : Def w after) (hb : Def w before)
    (hd : ∀ u inst, w u = some inst → pred u = true → before ∈ useIds inst →
      ∀ id ∈ useIds inst, Def w id) :
    ∃ m', replaceAllUses w m before after pred =
        some (fun u => (w u).map fun inst => if pred u then renameInst before after inst else inst, m') ∧
      Inv (fun u => (w u).map fun inst => if pred u then renameInst before after inst else inst)
        (fun u => (w u).map fun inst => if pred u then renameInst before after inst else inst) m' := by
  obtain ⟨ps, h1, h2, h3⟩ := uses_of h hb
  obtain ⟨d, hdd⟩ := Option.isSome_iff_exists.mp (h.defs_isSome.mpr ha)
  obtain ⟨m', h4, h5⟩ := replaceLoop_spec after (ps.filter fun p => pred p.1) none w m h ha (by
    rintro ⟨u, k⟩ hp
    obtain ⟨h6, h7⟩ := List.mem_filter.mp hp
    obtain ⟨inst, h8, h9⟩ := (h3 u k).mp h6
    have hm := (mem_useIds before inst).mpr ⟨k, h9⟩
    obtain ⟨kd, h10, h11⟩ := (useIndices_mem _ _ _).mp h9
    exact ⟨inst, h8, ⟨kd, before, h10, h11⟩, hd u inst h8 h7 hm⟩)
  have hw : (fun u => (w u).map (setAt (fun k => decide ((u, k) ∈ ps.filter fun p => pred p.1)) after)) =
      (fun u => (w u).map fun inst => if pred u then renameInst before after inst else inst) := by
    funext u
    cases hu : w u with
    | none => rfl
    | some inst =>
      simp only [Option.map_some, Option.some.injEq]
      cases hpu : pred u with
      | false =>
        rw [if_neg (by simp)]
        apply setAt_false
        intro k
        simp [hpu]
      | true =>
        rw [if_pos rfl, ← setAt_rename hb.1]
        congr 1
        funext k
        congr 1
        simp only [List.mem_filter, h3, hu, Option.some.injEq, exists_eq_left', hpu, and_true]
  rw [hw] at h4 h5
  refine ⟨m', ?_, h5⟩
  unfold replaceAllUses
  rw [if_neg hne, hdd, h1]
  exact h4

end Verif.DefUse
