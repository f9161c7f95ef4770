import Verif.Locations.Lemmas

/-! Helper lemmas for C69: the validator marks the slots of the placements in turn. -/

set_option linter.unusedSimpArgs false
set_option linter.unusedVariables false

namespace Verif.Locations
open Spec

/-- The slots looked at for a placement. -/
def slots (p : Placement) : List Nat :=
  if p.key = .tile then [4 * p.loc]
  else if p.member then memberSlots p.ty.isArr p.loc p.ty.numLocs.2 p.ty.numComps p.comp
  else
    match p.ty with
    | .arr e len => varSlots p.loc e.numLocs.2 e.numComps p.comp (len.getD 1) 0
    | t => varSlots p.loc t.numLocs.2 t.numComps p.comp 1 0

/-- Tile images are placed as scalars. -/
def TileOk (p : Placement) : Prop := p.key = .tile → p.ty = .scalar false ∧ p.comp = 0

/-- One element of a variable. -/
theorem elem_sound {e : Ty} {loc c s : Nat} (he : Plain e) (hc : c ≤ 3)
    (hl : loc + locs e < 2 ^ 29 + 4096) (hs : s ∈ flatSlots loc (locs e) (width e) c) :
    ∃ j, uses e c j ∧ s = 4 * loc + j := by
  rw [mem_flat hl hc (width_le e he)] at hs
  split at hs
  · exact ⟨s - 4 * loc, uses_first e c _ he (by omega) (by omega), by omega⟩
  · rename_i h
    exact ⟨s - 4 * loc, (uses_whole e c _ he (by omega)).2 (by omega), by omega⟩

/-- A leaf: takes exactly its components, or everything. -/
theorem uses_leaf (e : Ty) (c k : Nat) (he : Plain e) (hn : e.isArr = false) (hw : width e ≠ 0) :
    uses e c k ↔ c ≤ k ∧ k < c + width e := by
  cases e <;> simp_all [uses, width, Ty.isArr, Plain]

theorem elem_cover {e : Ty} {loc c j : Nat} (he : Plain e) (hc : c ≤ 3)
    (hn : e.isArr = true → width e = 0)
    (hl : loc + locs e < 2 ^ 29 + 4096) (hj : uses e c j) :
    4 * loc + j ∈ flatSlots loc (locs e) (width e) c := by
  rw [mem_flat hl hc (width_le e he)]
  split
  · rename_i hw
    have hn' : e.isArr = false := by
      cases h : e.isArr with
      | false => rfl
      | true => exact absurd (hn h) hw
    rw [uses_leaf e c j he hn' hw] at hj
    omega
  · rename_i hw
    rw [uses_whole e c j he (by omega)] at hj
    omega

theorem u32_locs {t : Ty} (h : locs t < 2 ^ 29) (hp : Plain t) : t.numLocs.2 = locs t := by
  rw [numLocs_plain t hp]; exact u32_of_lt (by omega)

/-- Slots of variables, as one list for arrays and the rest. -/
theorem slots_var {p : Placement} (hk : p.key ≠ .tile) (hm : p.member = false) :
    (∃ e len, p.ty = .arr e len ∧
      slots p = varSlots p.loc e.numLocs.2 e.numComps p.comp (len.getD 1) 0) ∨
    (p.ty.isArr = false ∧ slots p = varSlots p.loc p.ty.numLocs.2 p.ty.numComps p.comp 1 0) := by
  obtain ⟨k, ty, l, c, m⟩ := p
  simp only at hk hm
  cases ty with
  | arr e len => exact .inl ⟨e, len, rfl, by simp [slots, hk, hm]⟩
  | _ => exact .inr ⟨rfl, by simp [slots, hk, hm]⟩

theorem slots_sound {p : Placement} {s : Nat} (hf : Fits p) (ht : TileOk p) (hs : s ∈ slots p) :
    p.takes s := by
  have hm16 : maxLocations = 16384 := rfl
  have hlt := hf.small
  by_cases hk : p.key = .tile
  · obtain ⟨h1, h2⟩ := ht hk
    simp only [slots, hk, if_true, List.mem_singleton] at hs
    subst hs
    exact ⟨0, by rw [h1, h2]; simp [uses], by omega⟩
  · cases hm : p.member with
    | true =>
      have hs : s ∈ memberSlots p.ty.isArr p.loc p.ty.numLocs.2 p.ty.numComps p.comp := by
        simpa [slots, hk, hm] using hs
      rw [u32_locs (by omega) hf.plain, numComps_plain _ hf.plain,
        mem_member hlt hf.comp (width_le _ hf.plain)] at hs
      obtain ⟨_, hs⟩ := hs
      split at hs
      · rename_i h
        obtain ⟨_, l, h1, h2, h3, h4⟩ := hs
        exact ⟨s - 4 * p.loc, (uses_rows _ _ _ hf.plain h.2.1 h.2.2).2
          ⟨l - p.loc, by omega, by omega, by omega⟩, by omega⟩
      · obtain ⟨j, h1, h2⟩ := elem_sound hf.plain hf.comp (by omega) hs
        exact ⟨j, h1, h2⟩
    | false =>
      rcases slots_var hk hm with ⟨e, len, he, hs'⟩ | ⟨_, hs'⟩
      · rw [hs'] at hs
        have hp : Plain (.arr e len) := he ▸ hf.plain
        have h1 : 1 ≤ len.getD 1 := hp.1
        have hle : locs e ≤ locs p.ty := by
          rw [he]; simp only [locs]
          have := Nat.mul_le_mul_left (locs e) h1
          omega
        rw [u32_locs (by omega) hp.2, numComps_plain _ hp.2] at hs
        obtain ⟨d, hd, hd2, hs⟩ := (mem_var _ _).1 hs
        rw [Nat.zero_add] at hd2 hs
        obtain ⟨j, h3, h4⟩ := elem_sound hp.2 hf.comp (by omega) hs
        refine ⟨4 * (locs e * d) + j, ?_, by omega⟩
        rw [he]
        exact ⟨d, hd, j, h3, rfl⟩
      · rw [hs', u32_locs (by omega) hf.plain, numComps_plain _ hf.plain] at hs
        obtain ⟨d, hd, hd2, hs⟩ := (mem_var _ _).1 hs
        obtain rfl : d = 0 := by omega
        simp only [Nat.add_zero, Nat.mul_zero] at hs
        obtain ⟨j, h3, h4⟩ := elem_sound hf.plain hf.comp (by omega) hs
        exact ⟨j, h3, h4⟩

theorem slots_cover {p : Placement} {s : Nat} (hf : Fits p) (hsh : Shaped p) (ht : TileOk p)
    (hb : s < 4096 * 4) (hs : p.takes s) : s ∈ slots p := by
  have hm16 : maxLocations = 16384 := rfl
  have hlt := hf.small
  obtain ⟨k, hk', rfl⟩ := hs
  by_cases hk : p.key = .tile
  · obtain ⟨h1, h2⟩ := ht hk
    rw [h1, h2] at hk'
    simp [uses] at hk'
    subst hk'
    simp [slots, hk]
  · cases hm : p.member with
    | true =>
      have e : slots p = memberSlots p.ty.isArr p.loc p.ty.numLocs.2 p.ty.numComps p.comp := by
        simp [slots, hk, hm]
      rw [e, u32_locs (by omega) hf.plain, numComps_plain _ hf.plain,
        mem_member hlt hf.comp (width_le _ hf.plain)]
      refine ⟨by omega, ?_⟩
      split
      · rename_i h
        obtain ⟨l, h1, h2, h3⟩ := (uses_rows _ _ _ hf.plain h.2.1 h.2.2).1 hk'
        exact ⟨by omega, p.loc + l, by omega, by omega, by omega, by omega⟩
      · rename_i h
        refine elem_cover hf.plain hf.comp ?_ (by omega) hk'
        intro ha
        cases hty : p.ty with
        | arr e len =>
          have hw : width e < 4 := by simpa [Shaped, hty, hm] using hsh
          simp only [width]
          rw [hty] at h ha
          simp only [width, Ty.isArr, true_and] at h
          omega
        | _ => simp [hty, Ty.isArr] at ha
    | false =>
      rcases slots_var hk hm with ⟨e, len, he, hs'⟩ | ⟨hn, hs'⟩
      · rw [hs']
        have hp : Plain (.arr e len) := he ▸ hf.plain
        have h1 : 1 ≤ len.getD 1 := hp.1
        have hle : locs e ≤ locs p.ty := by
          rw [he]; simp only [locs]
          have := Nat.mul_le_mul_left (locs e) h1
          omega
        rw [u32_locs (by omega) hp.2, numComps_plain _ hp.2, mem_var]
        rw [he] at hk'
        obtain ⟨i, hi, j, hj, rfl⟩ := hk'
        refine ⟨i, hi, by rw [Nat.zero_add]; omega, ?_⟩
        rw [Nat.zero_add]
        have := elem_cover (loc := p.loc + locs e * i) hp.2 hf.comp ?_ (by omega) hj
        · rw [Nat.mul_add, Nat.add_assoc] at this; exact this
        · intro ha
          cases e with
          | arr e' len' =>
            have : width e' = 0 := by simpa [Shaped, he, hm] using hsh
            exact this
          | _ => simp [Ty.isArr] at ha
      · rw [hs', u32_locs (by omega) hf.plain, numComps_plain _ hf.plain, mem_var]
        refine ⟨0, by omega, by simp; omega, ?_⟩
        simp only [Nat.add_zero, Nat.mul_zero]
        exact elem_cover hf.plain hf.comp (by simp [hn]) (by omega) hk'

theorem slots_nodup {p : Placement} (hf : Fits p) : (slots p).Nodup := by
  have hlt := hf.small
  by_cases hk : p.key = .tile
  · simp [slots, hk]
  · cases hm : p.member with
    | true => simp only [slots, hk, hm, if_false, if_true]; exact member_nodup
    | false =>
      rcases slots_var hk hm with ⟨e, len, he, hs'⟩ | ⟨hn, hs'⟩
      · rw [hs']
        have hp : Plain (.arr e len) := he ▸ hf.plain
        have h1 : 1 ≤ len.getD 1 := hp.1
        have hle : locs e ≤ locs p.ty := by
          rw [he]; simp only [locs]
          have := Nat.mul_le_mul_left (locs e) h1
          omega
        rw [u32_locs (by omega) hp.2, numComps_plain _ hp.2]
        exact var_nodup (by omega) hf.comp (width_le _ hp.2) (width_le_locs _ hp.2) _ _
      · rw [hs', u32_locs (by omega) hf.plain, numComps_plain _ hf.plain]
        exact var_nodup (by omega) hf.comp (width_le _ hf.plain) (width_le_locs _ hf.plain) _ _

/-! ### Marking -/

theorem mark_ok {k : Key} : ∀ {l : List Nat} {st st' : Sets}, mark k l st = .ok st' →
    (∀ s ∈ l, s ∉ st k) ∧ ∀ k' s, s ∈ st' k' ↔ s ∈ st k' ∨ (k' = k ∧ s ∈ l)
  | [], st, st', h => by
    simp only [mark, Out.ok.injEq] at h
    subst h
    simp
  | i :: l, st, st', h => by
    simp only [mark] at h
    split at h
    · cases h
    · rename_i hi
      obtain ⟨h1, h2⟩ := mark_ok h
      constructor
      · intro s hs
        rcases List.mem_cons.1 hs with rfl | hs
        · exact hi
        · have := h1 s hs
          simp at this
          exact this.2
      · intro k' s
        rw [h2]
        by_cases hk : k' = k
        · subst hk; simp; constructor
          · rintro ((rfl | h) | h) <;> simp_all
          · rintro (h | rfl | h) <;> simp_all
        · simp [hk]

theorem mark_conflict {k : Key} : ∀ {l : List Nat} {st : Sets} {s : Nat}, mark k l st = .conflict s →
    l.Nodup → s ∈ l ∧ s ∈ st k
  | [], st, s, h, _ => by simp [mark] at h
  | i :: l, st, s, h, hn => by
    simp only [mark] at h
    rw [List.nodup_cons] at hn
    split at h
    · rename_i hi
      cases h
      exact ⟨List.mem_cons_self, hi⟩
    · obtain ⟨h1, h2⟩ := mark_conflict h hn.2
      simp only [if_true, List.mem_cons] at h2
      rcases h2 with rfl | h2
      · exact absurd h1 hn.1
      · exact ⟨List.mem_cons_of_mem _ h1, h2⟩

theorem mark_ne_bad {k : Key} : ∀ {l : List Nat} {st : Sets}, mark k l st ≠ .bad
  | [], st => by simp [mark]
  | i :: l, st => by
    simp only [mark]; split
    · simp
    · exact mark_ne_bad

/-- All placements in turn. -/
def markAll : List Placement → Sets → Out Sets
  | [], st => .ok st
  | p :: ps, st => (mark p.key (slots p) st).bind (markAll ps)

theorem Out.bind_assoc {α β γ : Type} (a : Out α) (f : α → Out β) (g : β → Out γ) :
    (a.bind f).bind g = a.bind fun x => (f x).bind g := by cases a <;> rfl

theorem markAll_append : ∀ (ps qs : List Placement) (st : Sets),
    markAll (ps ++ qs) st = (markAll ps st).bind (markAll qs)
  | [], qs, st => rfl
  | p :: ps, qs, st => by
    simp only [List.cons_append, markAll, Out.bind_assoc]
    congr 1; funext st'; exact markAll_append ps qs st'

theorem markAll_ne_bad : ∀ (ps : List Placement) (st : Sets), markAll ps st ≠ .bad
  | [], st => by simp [markAll]
  | p :: ps, st => by
    simp only [markAll]
    cases h : mark p.key (slots p) st with
    | ok st' => exact markAll_ne_bad ps st'
    | conflict s => simp [Out.bind]
    | bad => exact absurd h mark_ne_bad

theorem markAll_ok : ∀ (ps : List Placement) (st st' : Sets), markAll ps st = .ok st' →
    (∀ p ∈ ps, ∀ s ∈ slots p, s ∉ st p.key) ∧
    ps.Pairwise (fun p q => p.key = q.key → ∀ s, ¬ (s ∈ slots p ∧ s ∈ slots q))
  | [], st, st', h => by simp
  | p :: ps, st, st', h => by
    simp only [markAll] at h
    cases hm : mark p.key (slots p) st with
    | ok st1 =>
      rw [hm] at h
      obtain ⟨h1, h2⟩ := mark_ok hm
      obtain ⟨h3, h4⟩ := markAll_ok ps st1 st' h
      refine ⟨?_, List.pairwise_cons.2 ⟨?_, h4⟩⟩
      · intro q hq s hs
        rcases List.mem_cons.1 hq with rfl | hq
        · exact h1 s hs
        · have := h3 q hq s hs
          rw [h2] at this
          exact fun h => this (.inl h)
      · intro q hq hk s hs
        have := h3 q hq s hs.2
        rw [h2] at this
        exact this (.inr ⟨hk.symm, hs.1⟩)
    | conflict s => rw [hm] at h; simp [Out.bind] at h
    | bad => exact absurd hm mark_ne_bad

theorem markAll_conflict : ∀ (ps : List Placement) (st : Sets) (s : Nat),
    markAll ps st = .conflict s → (∀ p ∈ ps, (slots p).Nodup) →
    (∃ p ∈ ps, s ∈ slots p ∧ s ∈ st p.key) ∨
    ¬ ps.Pairwise (fun p q => p.key = q.key → ∀ s, ¬ (s ∈ slots p ∧ s ∈ slots q))
  | [], st, s, h, _ => by simp [markAll] at h
  | p :: ps, st, s, h, hn => by
    simp only [markAll] at h
    cases hm : mark p.key (slots p) st with
    | ok st1 =>
      rw [hm] at h
      obtain ⟨h1, h2⟩ := mark_ok hm
      rcases markAll_conflict ps st1 s h (fun q hq => hn q (List.mem_cons_of_mem _ hq)) with
        ⟨q, hq, hs1, hs2⟩ | hp
      · rw [h2] at hs2
        rcases hs2 with hs2 | ⟨hk, hs2⟩
        · exact .inl ⟨q, List.mem_cons_of_mem _ hq, hs1, hs2⟩
        · refine .inr fun hpw => ?_
          exact (List.pairwise_cons.1 hpw).1 q hq hk.symm s ⟨hs2, hs1⟩
      · exact .inr fun hpw => hp (List.pairwise_cons.1 hpw).2
    | conflict s' =>
      rw [hm] at h
      simp only [Out.bind, Out.conflict.injEq] at h
      subst h
      obtain ⟨h1, h2⟩ := mark_conflict hm (hn p List.mem_cons_self)
      exact .inl ⟨p, List.mem_cons_self, h1, h2⟩
    | bad => exact absurd hm mark_ne_bad

end Verif.Locations
