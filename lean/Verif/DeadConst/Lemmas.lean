import Verif.DeadConst.Model

set_option linter.unusedSimpArgs false
set_option linter.unusedVariables false

namespace Verif.DeadConst

open Verif.DefUse (Kind isUseType upd)

theorem upd_self {α β : Type} [DecidableEq α] (f : α → β) (a : α) (b : β) : upd f a b a = b := by
  simp [upd]

theorem upd_other {α β : Type} [DecidableEq α] (f : α → β) {a x : α} (b : β) (h : x ≠ a) :
    upd f a b x = f x := by
  simp [upd, h]

/-- References released when `u` is found dead. -/
def releasedIn (u : Inst) (id : Id) : Nat :=
  if u.cls = .composite then (u.ins.filter fun p => p.1 == Kind.id && p.2 == id).length else 0

theorem filter_le {α : Type} (l : List α) (p q : α → Bool) (h : ∀ x, p x = true → q x = true) :
    (l.filter p).length ≤ (l.filter q).length := by
  induction l with
  | nil => simp
  | cons a l ih =>
    simp only [List.filter_cons]
    cases hp : p a
    · cases hq : q a <;> simp <;> omega
    · rw [h a hp]; simp; exact ih

theorem released_le (u : Inst) (id : Id) : releasedIn u id ≤ usesIn u id := by
  unfold releasedIn usesIn Inst.operands
  split
  · rw [List.filter_append, List.length_append]
    have := filter_le u.ins (fun p => p.1 == Kind.id && p.2 == id)
      (fun p => isUseType p.1 && p.2 == id) (by
        intro x hx
        simp only [Bool.and_eq_true, beq_iff_eq] at hx ⊢
        refine ⟨?_, hx.2⟩
        rw [hx.1]; rfl)
    omega
  · exact Nat.zero_le _

/-- Counted references to `id` not released when `D` is dead. -/
def remaining (m : List Inst) (D : List Id) (id : Id) : Nat :=
  (m.map fun u => if excluded u.cls then 0 else
    usesIn u id - (if u.result ∈ D then releasedIn u id else 0)).sum

theorem remaining_nil (m : List Inst) (id : Id) : remaining m [] id = countUses m id := by
  unfold remaining countUses
  simp

theorem sum_map_congr {α : Type} (l : List α) (f g : α → Nat) (h : ∀ x ∈ l, f x = g x) :
    (l.map f).sum = (l.map g).sum := by
  induction l with
  | nil => rfl
  | cons a l ih =>
    simp only [List.map_cons, List.sum_cons]
    rw [h a List.mem_cons_self, ih (fun x hx => h x (List.mem_cons_of_mem _ hx))]

/-- Results of constants identify them. -/
def Unique (m : List Inst) : Prop :=
  m.Pairwise fun a b => isConst a.cls = true → a.result ≠ b.result ∧ isConst a.cls = true

theorem composite_facts {u : Inst} (h : u.cls = .composite) :
    isConst u.cls = true ∧ excluded u.cls = false := by
  rw [h]; exact ⟨rfl, rfl⟩

theorem const_not_excluded {u : Inst} (h : isConst u.cls = true) : excluded u.cls = false := by
  revert h
  cases u.cls <;> simp [isConst, excluded]

/-- `c` occurs in the result position of `cur` only. -/
def OnlyResult (m : List Inst) (c : Id) (cur : Inst) : Prop :=
  ∃ m1 m2, m = m1 ++ cur :: m2 ∧ (∀ u ∈ m1, u.result ≠ c) ∧ (∀ u ∈ m2, u.result ≠ c) ∧
    cur.result = c

theorem remaining_add (m : List Inst) (D : List Id) (cur : Inst) (c : Id)
    (ho : OnlyResult m c cur) (hc : isConst cur.cls = true) (hD : c ∉ D) (id : Id) :
    remaining m (c :: D) id + releasedIn cur id = remaining m D id := by
  obtain ⟨m1, m2, rfl, h1, h2, h3⟩ := ho
  unfold remaining
  simp only [List.map_append, List.map_cons, List.sum_append, List.sum_cons]
  have e : ∀ l : List Inst, (∀ u ∈ l, u.result ≠ c) →
      (l.map fun u => if excluded u.cls then 0 else
        usesIn u id - (if u.result ∈ c :: D then releasedIn u id else 0)).sum =
      (l.map fun u => if excluded u.cls then 0 else
        usesIn u id - (if u.result ∈ D then releasedIn u id else 0)).sum := by
    intro l hl
    apply sum_map_congr
    intro u hu
    simp only [List.mem_cons, hl u hu, false_or]
  rw [e m1 h1, e m2 h2]
  have hx := const_not_excluded hc
  have hle := released_le cur id
  rw [h3]
  simp only [hx, Bool.false_eq_true, if_false, List.mem_cons, true_or, if_true, hD]
  omega

theorem remaining_ge (m : List Inst) (D : List Id) (cur : Inst) (c : Id)
    (ho : OnlyResult m c cur) (hc : isConst cur.cls = true) (hD : c ∉ D) (id : Id) :
    releasedIn cur id ≤ remaining m D id := by
  have := remaining_add m D cur c ho hc hD id; omega

theorem remaining_congr (m : List Inst) (D D' : List Id) (h : ∀ x, x ∈ D ↔ x ∈ D') (id : Id) :
    remaining m D id = remaining m D' id := by
  unfold remaining
  simp only [h]

/-! ## the operand loop -/

theorem release_spec (ops : List (Kind × Nat)) (counts : Id → Option Nat) (work : List Id)
    (h : ∀ id n, counts id = some n →
      (ops.filter fun p => p.1 == Kind.id && p.2 == id).length ≤ n) :
    ∃ counts' work', release ops counts work = some (counts', work') ∧
      (∀ id, counts' id = (counts id).map fun n =>
        n - (ops.filter fun p => p.1 == Kind.id && p.2 == id).length) ∧
      (∀ x, x ∈ work' ↔ x ∈ work ∨
        (counts' x = some 0 ∧ ∃ n, counts x = some n ∧ n ≠ 0)) ∧
      (work.Nodup → work'.Nodup) := by
  induction ops generalizing counts work with
  | nil =>
    refine ⟨counts, work, rfl, by simp, ?_, id⟩
    intro x
    constructor
    · exact Or.inl
    · rintro (h1 | ⟨h1, n, h2, h3⟩)
      · exact h1
      · rw [h1] at h2; cases h2; exact absurd rfl h3
  | cons p ops ih =>
    obtain ⟨k, wd⟩ := p
    unfold release
    split
    · rename_i hk
      have hkb : (k == Kind.id) = false := beq_false_of_ne hk
      simp only [List.filter_cons, hkb, Bool.false_and, Bool.false_eq_true, if_false] at h ⊢
      exact ih counts work h
    · rename_i hk
      have hk : k = Kind.id := by
        cases k <;> first | rfl | exact absurd (by decide) hk
      subst hk
      have hself : ∀ id, (((Kind.id, wd) :: ops).filter fun p => p.1 == Kind.id && p.2 == id).length =
          (ops.filter fun p => p.1 == Kind.id && p.2 == id).length + (if wd = id then 1 else 0) := by
        intro id
        rw [List.filter_cons]
        by_cases hw : wd = id
        · simp [hw]
        · simp [hw, beq_false_of_ne hw]
      simp only [hself] at h ⊢
      cases hc : counts wd with
      | none =>
        dsimp only
        obtain ⟨c', w', h1, h2, h3, h4⟩ := ih counts work (by
          intro id n hn
          have := h id n hn
          omega)
        refine ⟨c', w', h1, ?_, h3, h4⟩
        intro id
        rw [h2]
        by_cases hw : wd = id
        · subst hw; rw [hc]; rfl
        · simp [hw]
      | some n =>
        cases n with
        | zero =>
          exfalso
          have := h wd 0 hc
          rw [if_pos rfl] at this
          omega
        | succ n =>
          dsimp only
          obtain ⟨c', w', h1, h2, h3, h4⟩ := ih (upd counts wd (some n))
            (if n = 0 then insertSet work wd else work) (by
              intro id n' hn
              by_cases hw : id = wd
              · subst hw
                rw [upd_self] at hn
                cases hn
                have := h id (n + 1) hc
                rw [if_pos rfl] at this
                omega
              · rw [upd_other _ _ hw] at hn
                have := h id n' hn
                omega)
          refine ⟨c', w', h1, ?_, ?_, ?_⟩
          · intro id
            rw [h2]
            by_cases hw : id = wd
            · subst hw
              rw [upd_self, hc]
              simp only [Option.map_some, if_true, Option.some.injEq]
              omega
            · rw [upd_other _ _ hw]
              simp only [if_neg (Ne.symm hw), Nat.add_zero]
          · intro x
            rw [h3]
            have hwk : x ∈ (if n = 0 then insertSet work wd else work) ↔
                x ∈ work ∨ (n = 0 ∧ x = wd) := by
              split
              · rename_i h0
                unfold insertSet
                split
                · rename_i hm
                  constructor
                  · exact Or.inl
                  · rintro (h5 | ⟨_, h5⟩)
                    · exact h5
                    · rw [h5]; exact hm
                · simp [h0]
              · rename_i h0; simp [h0]
            rw [hwk]
            by_cases hw : x = wd
            · subst hw
              have hx := h2 x
              rw [upd_self] at hx ⊢
              simp only [Option.map_some] at hx
              rw [hx, hc]
              simp only [Option.some.injEq, and_true, exists_eq_left', ne_eq]
              constructor
              · rintro ((h5 | h5) | ⟨h5, h6⟩)
                · exact Or.inl h5
                · exact Or.inr ⟨by omega, by omega⟩
                · exact Or.inr ⟨h5, by omega⟩
              · rintro (h5 | ⟨h5, h6⟩)
                · exact Or.inl (Or.inl h5)
                · by_cases h0 : n = 0
                  · exact Or.inl (Or.inr h0)
                  · exact Or.inr ⟨h5, h0⟩
            · rw [upd_other _ _ hw]
              simp [hw]
          · intro hn
            apply h4
            split
            · unfold insertSet
              split
              · exact hn
              · rename_i hm
                rw [List.nodup_append]
                refine ⟨hn, by simp, ?_⟩
                intro a ha b hb hab
                simp at hb
                subst hb; subst hab; exact hm ha
            · exact hn

/-! ## the worklist loop -/

/-- All counted references to the constant come from dead composites. -/
inductive Dead (m : List Inst) : Id → Prop
  | intro (c : Id) (hc : c ∈ (constants m).map (·.result))
    (h : ∀ u ∈ m, excluded u.cls = false → usesIn u c = releasedIn u c)
    (hd : ∀ u ∈ m, excluded u.cls = false → 0 < usesIn u c → Dead m u.result) : Dead m c

structure Inv (m : List Inst) (s : State) : Prop where
  counts : ∀ id, s.counts id =
    if id ∈ (constants m).map (·.result) then some (remaining m s.dead id) else none
  work : ∀ x, x ∈ s.work ↔ s.counts x = some 0 ∧ x ∉ s.dead
  dead : ∀ x ∈ s.dead, s.counts x = some 0 ∧ Dead m x
  nd : s.dead.Nodup
  wnd : s.work.Nodup

theorem sum_eq_zero {α : Type} (l : List α) (f : α → Nat) :
    (l.map f).sum = 0 ↔ ∀ x ∈ l, f x = 0 := by
  induction l with
  | nil => simp
  | cons a l ih =>
    simp only [List.map_cons, List.sum_cons, List.mem_cons, forall_eq_or_imp]
    rw [Nat.add_eq_zero_iff, ih]

theorem dead_of_remaining {m : List Inst} {D : List Id} {c : Id}
    (hc : c ∈ (constants m).map (·.result)) (h0 : remaining m D c = 0)
    (hD : ∀ x ∈ D, Dead m x) : Dead m c := by
  unfold remaining at h0
  rw [sum_eq_zero] at h0
  refine Dead.intro c hc ?_ ?_
  · intro u hu he
    have := h0 u hu
    simp only [he, Bool.false_eq_true, if_false] at this
    have hle := released_le u c
    split at this <;> omega
  · intro u hu he hp
    have := h0 u hu
    simp only [he, Bool.false_eq_true, if_false] at this
    split at this
    · rename_i hm; exact hD _ hm
    · omega

theorem find_const {m : List Inst} {c : Id} (hc : c ∈ (constants m).map (·.result)) :
    ∃ inst, (constants m).find? (fun i => i.result == c) = some inst ∧ inst ∈ m ∧
      isConst inst.cls = true ∧ inst.result = c := by
  obtain ⟨i, hi, rfl⟩ := List.mem_map.mp hc
  cases hf : (constants m).find? (fun j => j.result == i.result) with
  | none =>
    rw [List.find?_eq_none] at hf
    exact absurd (beq_self_eq_true i.result) (hf i hi)
  | some inst =>
    have h1 := List.mem_of_find?_eq_some hf
    have h2 := List.find?_some hf
    have h3 := List.mem_filter.mp h1
    exact ⟨inst, rfl, h3.1, h3.2, eq_of_beq h2⟩

/-- Result ids (other than 0) are defined once. -/
def OneDef (m : List Inst) : Prop :=
  (∀ u ∈ m, isConst u.cls = true → u.result ≠ 0) ∧
  m.Pairwise fun a b => a.result = b.result → a.result = 0

theorem onlyResult {m : List Inst} (h : OneDef m) {cur : Inst} (hm : cur ∈ m)
    (hc : isConst cur.cls = true) : OnlyResult m cur.result cur := by
  obtain ⟨m1, m2, rfl⟩ := List.append_of_mem hm
  have h0 := h.1 cur hm hc
  have hp := h.2
  rw [List.pairwise_append, List.pairwise_cons] at hp
  obtain ⟨_, ⟨h2, _⟩, h3⟩ := hp
  refine ⟨m1, m2, rfl, ?_, ?_, rfl⟩
  · intro u hu he
    exact h0 (he ▸ h3 u hu cur List.mem_cons_self he)
  · intro u hu he
    exact h0 (h2 u hu he.symm)

theorem inv_init (m : List Inst) (hn : OneDef m) : Inv m (init m) := by
  refine ⟨?_, ?_, by simp [init], by simp [init], ?_⟩
  · intro id; simp only [init, remaining_nil]
  · intro x
    simp only [init, List.mem_filter, beq_iff_eq, List.not_mem_nil, not_false_eq_true, and_true]
    split
    · rename_i h; simp [h]
    · rename_i h; simp [h]
  · simp only [init]
    apply List.Pairwise.filter
    rw [List.pairwise_map]
    unfold constants
    refine List.Pairwise.imp_of_mem ?_ (hn.2.filter _)
    intro a b ha hb hab he
    exact hn.1 a (List.mem_filter.mp ha).1 (List.mem_filter.mp ha).2 (hab he)

theorem nodup_subset_length {α : Type} [DecidableEq α] {l l' : List α} (h : l.Nodup)
    (hs : ∀ x ∈ l, x ∈ l') : l.length ≤ l'.length := by
  induction l generalizing l' with
  | nil => simp
  | cons a l ih =>
    rw [List.nodup_cons] at h
    have hm := hs a List.mem_cons_self
    have := ih (l' := l'.erase a) h.2 (by
      intro x hx
      have hxa : x ≠ a := fun he => h.1 (he ▸ hx)
      exact (List.mem_erase_of_ne hxa).mpr (hs x (List.mem_cons_of_mem _ hx)))
    rw [List.length_erase_of_mem hm] at this
    have : 0 < l'.length := List.length_pos_of_mem hm
    simp only [List.length_cons]
    omega

theorem choose_some {pick : List Id → Nat} {work : List Id} (h : work ≠ []) :
    ∃ c, choose pick work = some c ∧ c ∈ work := by
  have hl : 0 < work.length := List.length_pos_iff.mpr h
  have hlt : pick work % work.length < work.length := Nat.mod_lt _ hl
  exact ⟨work[pick work % work.length], List.getElem?_eq_getElem hlt, List.getElem_mem hlt⟩

theorem loop_spec (pick : List Id → Nat) (m : List Inst) (hn : OneDef m) (fuel : Nat) (s : State)
    (h : Inv m s) (hf : (constants m).length ≤ fuel + s.dead.length) :
    ∃ s', loop pick m fuel s = some s' ∧ Inv m s' ∧ s'.work = [] := by
  induction fuel generalizing s with
  | zero =>
    have hw : s.work = [] := by
      by_cases hw : s.work = []
      · exact hw
      · exfalso
        obtain ⟨c, _, hc⟩ := choose_some (pick := pick) hw
        obtain ⟨h1, h2⟩ := (h.work c).mp hc
        have hmem : ∀ x ∈ c :: s.dead, x ∈ (constants m).map (·.result) := by
          intro x hx
          have : s.counts x = some 0 := by
            rcases List.mem_cons.mp hx with hx | hx
            · rw [hx]; exact h1
            · exact (h.dead x hx).1
          rw [h.counts] at this
          split at this
          · assumption
          · cases this
        have := nodup_subset_length (List.nodup_cons.mpr ⟨h2, h.nd⟩) hmem
        simp only [List.length_cons, List.length_map] at this
        omega
    exact ⟨s, by unfold loop; rw [if_pos hw], h, hw⟩
  | succ fuel ih =>
    unfold loop
    by_cases hw : s.work = []
    · have : choose pick s.work = none := by rw [hw]; rfl
      rw [this]
      exact ⟨s, rfl, h, hw⟩
    · obtain ⟨c, hch, hc⟩ := choose_some (pick := pick) hw
      rw [hch]
      dsimp only
      obtain ⟨hc0, hcd⟩ := (h.work c).mp hc
      have hcm : c ∈ (constants m).map (·.result) := by
        rw [h.counts] at hc0
        split at hc0
        · assumption
        · cases hc0
      obtain ⟨inst, hfi, him, hic, hir⟩ := find_const hcm
      rw [hfi]
      dsimp only
      have ho : OnlyResult m c inst := hir ▸ onlyResult hn him hic
      have hge := remaining_ge m s.dead inst c ho hic hcd
      have hadd := remaining_add m s.dead inst c ho hic hcd
      have hstep : ∃ counts work, (if inst.cls = .composite then release inst.ins s.counts s.work
          else some (s.counts, s.work)) = some (counts, work) ∧
          (∀ id, counts id = (s.counts id).map fun n => n - releasedIn inst id) ∧
          (∀ x, x ∈ work ↔ x ∈ s.work ∨ (counts x = some 0 ∧ ∃ n, s.counts x = some n ∧ n ≠ 0)) ∧
          (s.work.Nodup → work.Nodup) := by
        unfold releasedIn
        split
        · rename_i hcls
          apply release_spec
          intro id n hn'
          have := hge id
          unfold releasedIn at this
          rw [if_pos hcls] at this
          rw [h.counts] at hn'
          split at hn'
          · cases hn'; exact this
          · cases hn'
        · refine ⟨s.counts, s.work, rfl, by simp, ?_, id⟩
          intro x
          constructor
          · exact Or.inl
          · rintro (h1 | ⟨h1, n, h2, h3⟩)
            · exact h1
            · rw [h1] at h2; cases h2; exact absurd rfl h3
      obtain ⟨counts, work, h1, h2, h3, h4⟩ := hstep
      rw [h1]
      dsimp only
      have hins : insertSet s.dead c = s.dead ++ [c] := by unfold insertSet; rw [if_neg hcd]
      rw [hins]
      have hcounts : ∀ id, counts id =
          if id ∈ (constants m).map (·.result) then some (remaining m (s.dead ++ [c]) id) else none := by
        intro id
        rw [h2, h.counts]
        split
        · have h5 := hadd id
          have h6 : remaining m (s.dead ++ [c]) id = remaining m (c :: s.dead) id :=
            remaining_congr _ _ _ (by intro x; simp [or_comm]) id
          simp only [Option.map_some, Option.some.injEq]
          omega
        · rfl
      have hzero : ∀ x, s.counts x = some 0 → counts x = some 0 := by
        intro x hx; rw [h2, hx]; simp
      have hdeadD : ∀ x ∈ s.dead ++ [c], counts x = some 0 ∧ Dead m x := by
        intro x hx
        rcases List.mem_append.mp hx with hx | hx
        · exact ⟨hzero x (h.dead x hx).1, (h.dead x hx).2⟩
        · simp only [List.mem_singleton] at hx
          subst hx
          refine ⟨hzero x hc0, ?_⟩
          apply dead_of_remaining hcm (D := s.dead) _ (fun y hy => (h.dead y hy).2)
          rw [h.counts, if_pos hcm] at hc0
          exact Option.some.inj hc0
      apply ih
      · refine ⟨hcounts, ?_, hdeadD, ?_, ?_⟩
        · intro x
          dsimp only
          simp only [List.mem_filter, decide_eq_true_eq, ne_eq, h3, List.mem_append,
            List.mem_singleton, not_or]
          constructor
          · rintro ⟨h5 | ⟨h5, n, h6, h7⟩, h8⟩
            · obtain ⟨h9, h10⟩ := (h.work x).mp h5
              exact ⟨hzero x h9, h10, h8⟩
            · refine ⟨h5, ?_, h8⟩
              intro hd
              have := (h.dead x hd).1
              rw [h6] at this; cases this; exact h7 rfl
          · rintro ⟨h5, h6, h7⟩
            refine ⟨?_, h7⟩
            cases hcx : s.counts x with
            | none => rw [h2, hcx] at h5; cases h5
            | some n =>
              by_cases h0 : n = 0
              · subst h0; exact Or.inl ((h.work x).mpr ⟨hcx, h6⟩)
              · exact Or.inr ⟨h5, n, rfl, h0⟩
        · dsimp only
          rw [List.nodup_append]
          refine ⟨h.nd, by simp, ?_⟩
          intro a ha b hb hab
          simp at hb
          subst hb; subst hab; exact hcd ha
        · exact (h4 h.wnd).filter _
      · dsimp only
        rw [List.length_append]
        simp only [List.length_singleton]
        omega

theorem dead_iff {m : List Inst} {s : State} (h : Inv m s) (hw : s.work = []) (c : Id) :
    c ∈ s.dead ↔ Dead m c := by
  constructor
  · exact fun hc => (h.dead c hc).2
  · intro hd
    induction hd with
    | intro c hc h1 h2 ih =>
      have hrem : remaining m s.dead c = 0 := by
        unfold remaining
        rw [sum_eq_zero]
        intro u hu
        split
        · rfl
        · rename_i he
          have he : excluded u.cls = false := by simpa using he
          by_cases hp : 0 < usesIn u c
          · rw [if_pos (ih u hu he hp), h1 u hu he]; omega
          · omega
      by_cases hcd : c ∈ s.dead
      · exact hcd
      · have : c ∈ s.work := (h.work c).mpr ⟨by rw [h.counts, if_pos hc, hrem], hcd⟩
        rw [hw] at this; cases this

/-! ## killing -/

theorem dropTargets_mem {α : Type} (same : α → Bool) (fuel i : Nat) (ts : List α)
    (hf : ts.length - i ≤ fuel) (hpre : ∀ (j : Nat) t, j < i → ts[j]? = some t → same t = false)
    (t : α) :
    t ∈ dropTargets same fuel i ts ↔ t ∈ ts ∧ same t = false := by
  induction fuel generalizing i ts with
  | zero =>
    unfold dropTargets
    constructor
    · intro h
      refine ⟨h, ?_⟩
      obtain ⟨j, hj⟩ := List.mem_iff_getElem?.mp h
      have := (List.getElem?_eq_some_iff.mp hj).1
      exact hpre j t (by omega) hj
    · exact fun h => h.1
  | succ fuel ih =>
    unfold dropTargets
    cases hi : ts[i]? with
    | none =>
      dsimp only
      constructor
      · intro h
        refine ⟨h, ?_⟩
        obtain ⟨j, hj⟩ := List.mem_iff_getElem?.mp h
        have := (List.getElem?_eq_some_iff.mp hj).1
        have hle := List.getElem?_eq_none_iff.mp hi
        exact hpre j t (by omega) hj
      · exact fun h => h.1
    | some x =>
      have hlt := (List.getElem?_eq_some_iff.mp hi).1
      dsimp only
      split
      · rename_i hs
        have hne : ts ≠ [] := by intro h0; rw [h0] at hlt; simp at hlt
        rw [List.getLast?_eq_some_getLast hne]
        dsimp only
        have hlen : ((ts.set i (ts.getLast hne)).dropLast).length = ts.length - 1 := by simp
        rw [ih]
        · have hget : ∀ j, j < ts.length - 1 →
              ((ts.set i (ts.getLast hne)).dropLast)[j]? =
                if i = j then some (ts.getLast hne) else ts[j]? := by
            intro j hj
            rw [List.getElem?_dropLast, List.length_set, if_pos hj, List.getElem?_set]
            by_cases hij : i = j
            · rw [if_pos hij, if_pos hij, if_pos hlt]
            · rw [if_neg hij, if_neg hij]
          have hlast : ts.getLast hne ∈ ts := List.getLast_mem hne
          constructor
          · rintro ⟨h1, h2⟩
            refine ⟨?_, h2⟩
            obtain ⟨j, hj⟩ := List.mem_iff_getElem?.mp h1
            have hjl := (List.getElem?_eq_some_iff.mp hj).1
            rw [hlen] at hjl
            rw [hget j hjl] at hj
            split at hj
            · cases hj; exact hlast
            · exact List.mem_iff_getElem?.mpr ⟨j, hj⟩
          · rintro ⟨h1, h2⟩
            refine ⟨?_, h2⟩
            obtain ⟨j, hj⟩ := List.mem_iff_getElem?.mp h1
            have hjl := (List.getElem?_eq_some_iff.mp hj).1
            have hji : i ≠ j := by
              intro he; subst he; rw [hi] at hj; cases hj; rw [hs] at h2; cases h2
            by_cases hjlast : j = ts.length - 1
            · have hil : i < ts.length - 1 := by omega
              refine List.mem_iff_getElem?.mpr ⟨i, ?_⟩
              rw [hget i hil, if_pos rfl, ← hj, hjlast, ← List.getLast?_eq_getElem?,
                List.getLast?_eq_some_getLast hne]
            · refine List.mem_iff_getElem?.mpr ⟨j, ?_⟩
              rw [hget j (by omega), if_neg hji]; exact hj
        · rw [hlen]; omega
        · intro j t' hj ht'
          have hjl := (List.getElem?_eq_some_iff.mp ht').1
          rw [hlen] at hjl
          rw [List.getElem?_dropLast, List.length_set, if_pos hjl, List.getElem?_set,
            if_neg (by omega)] at ht'
          exact hpre j t' hj ht'
      · rename_i hs
        rw [ih]
        · omega
        · intro j t' hj ht'
          by_cases hji : j = i
          · subst hji; rw [hi] at ht'; cases ht'; simpa using hs
          · exact hpre j t' (by omega) ht'

theorem kill_fold (D : List Id) (m : List Inst) :
    D.foldl (fun m id => kill id m) m =
      m.filterMap (fun u => D.foldl (fun (o : Option Inst) id => o.bind (killOne id)) (some u)) := by
  have hnone : ∀ D : List Id, D.foldl (fun (o : Option Inst) id => o.bind (killOne id)) none = none := by
    intro D
    induction D with
    | nil => rfl
    | cons d D ih => exact ih
  induction D generalizing m with
  | nil => simp
  | cons d D ih =>
    rw [List.foldl_cons, ih]
    unfold kill
    rw [List.filterMap_filterMap]
    congr 1
    funext u
    rw [List.foldl_cons]
    cases hk : killOne d u with
    | none => simp [hk, hnone]
    | some u' => simp [hk]

end Verif.DeadConst
