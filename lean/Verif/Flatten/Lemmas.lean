import Verif.Flatten.Spec
set_option linter.unusedSimpArgs false
set_option linter.unusedVariables false
namespace Verif.Flatten
open Spec

theorem mem_groupIds {as : List Ann} {g : Id} : g ∈ groupIds as ↔ Ann.group g ∈ as := by
  simp only [groupIds, List.mem_filterMap]
  constructor
  · rintro ⟨a, ha, h⟩
    split at h
    · cases h; exact ha
    · cases h
  · intro h; exact ⟨_, h, rfl⟩

theorem mem_normalUses {as : List Ann} {g t : Id} :
    t ∈ normalUses as g ↔ ∃ ts, Ann.groupDecorate g ts ∈ as ∧ t ∈ ts := by
  simp only [normalUses, List.mem_flatMap]
  constructor
  · rintro ⟨a, ha, h⟩
    split at h
    · split at h
      · rename_i e; subst e; exact ⟨_, ha, h⟩
      · cases h
    · cases h
  · rintro ⟨ts, h, ht⟩
    exact ⟨_, h, by simpa using ht⟩

theorem at_append {t m : Word} {ws vs : List Word} (h : ws.length % 2 = 0) :
    At t m (ws ++ vs) ↔ At t m ws ∨ At t m vs := by
  fun_induction pairs ws with
  | case1 =>
    simp only [List.nil_append]
    constructor
    · exact .inr
    · rintro (h | h)
      · cases h
      · exact h
  | case2 => simp at h
  | case3 a b r ih =>
    have ih := ih (by simp at h; omega)
    simp only [List.cons_append]
    constructor
    · intro h
      cases h with
      | here => exact .inl .here
      | later h => exact (ih.1 h).imp .later id
    · rintro (h | h)
      · cases h with
        | here => exact .here
        | later h => exact .later (ih.2 (.inl h))
      · exact .later (ih.2 (.inr h))

theorem flatMap_at {f : Ann → List Word} {t m : Word} : ∀ {l : List Ann}, (∀ a ∈ l, (f a).length % 2 = 0) →
    ((l.flatMap f).length % 2 = 0 ∧ (At t m (l.flatMap f) ↔ ∃ a ∈ l, At t m (f a)))
  | [], _ => by
    constructor
    · simp
    · simp only [List.flatMap_nil, List.not_mem_nil, false_and, exists_false, iff_false]
      intro h; cases h
  | a :: l, h => by
    have ih := flatMap_at (f := f) (t := t) (m := m) (l := l) (fun b hb => h b (by simp [hb]))
    have ha := h a (by simp)
    rw [List.flatMap_cons, at_append ha, ih.2]
    constructor
    · rw [List.length_append]; omega
    · simp

theorem pairs_spec {ws : List Word} (h : ws.length % 2 = 0) :
    ∃ ps, pairs ws = some ps ∧ ∀ t m, (t, m) ∈ ps ↔ At t m ws := by
  fun_induction pairs ws with
  | case1 =>
    refine ⟨[], rfl, fun t m => ?_⟩
    simp only [List.not_mem_nil, false_iff]
    intro h; cases h
  | case2 => simp at h
  | case3 a b r ih =>
    obtain ⟨ps, h1, h2⟩ := ih (by simp at h; omega)
    refine ⟨(a, b) :: ps, by simp [h1], fun t m => ?_⟩
    rw [List.mem_cons, h2]
    constructor
    · rintro (e | h)
      · cases e; exact .here
      · exact .later h
    · intro h
      cases h with
      | here => exact .inl rfl
      | later h => exact .inr h

theorem member_even {as : List Ann} (hv : Valid as) (g : Id) : (memberUses as g).length % 2 = 0 ∧
    ∀ t m, At t m (memberUses as g) ↔ ∃ ws, Ann.groupMember g ws ∈ as ∧ At t m ws := by
  have hev : ∀ a ∈ as, (memberWords g a).length % 2 = 0 := by
    intro a ha
    unfold memberWords
    split
    · split
      · exact hv.even _ _ ha
      · rfl
    · rfl
  unfold memberUses
  refine ⟨(flatMap_at (t := 0) (m := 0) hev).1, fun t m => ?_⟩
  rw [(flatMap_at (t := t) (m := m) hev).2]
  constructor
  · rintro ⟨a, ha, h⟩
    unfold memberWords at h
    split at h
    · split at h
      · rename_i e; subst e; exact ⟨_, ha, h⟩
      · cases h
    · cases h
  · rintro ⟨ws, h, ht⟩
    exact ⟨_, h, by simpa [memberWords] using ht⟩

/-- What an instruction is replaced by. -/
theorem replace_spec {as : List Ann} (hv : Valid as) {a : Ann} (ha : a ∈ as) : ∃ x, replace as a = some x ∧
    ∀ b, b ∈ x ↔
      (b = a ∧ (∀ g, ¬ (Mentions g a ∧ Ann.group g ∈ as)) ∧ (∀ g ts, a ≠ .groupDecorate g ts) ∧
        (∀ g ws, a ≠ .groupMember g ws)) ∨
      ∃ g d, a = .decorate g d ∧ ((∃ t ts, Ann.groupDecorate g ts ∈ as ∧ t ∈ ts ∧ b = .decorate t d) ∨
        ∃ t m ws, Ann.groupMember g ws ∈ as ∧ At t m ws ∧ b = .member t m d) := by
  cases a with
  | group g =>
    refine ⟨[], rfl, fun b => ?_⟩
    simp only [List.not_mem_nil, reduceCtorEq, false_and, exists_false, or_false, false_iff]
    rintro ⟨_, h, _⟩
    exact h g ⟨rfl, ha⟩
  | groupDecorate g ts => exact ⟨[], rfl, fun b => by simp⟩
  | groupMember g ws => exact ⟨[], rfl, fun b => by simp⟩
  | member t m d =>
    refine ⟨_, rfl, fun b => ?_⟩
    simp only [List.mem_singleton, ne_eq, reduceCtorEq, not_false_eq_true, implies_true, and_true, false_and,
      exists_false, or_false]
    refine ⟨fun h => ⟨h, ?_⟩, fun h => h.1⟩
    rintro g ⟨rfl, h⟩
    exact hv.member_target _ _ _ ha h
  | other op t d =>
    refine ⟨_, rfl, fun b => ?_⟩
    simp only [List.mem_singleton, ne_eq, reduceCtorEq, not_false_eq_true, implies_true, and_true, false_and,
      exists_false, or_false]
    refine ⟨fun h => ⟨h, ?_⟩, fun h => h.1⟩
    rintro g ⟨rfl, h⟩
    exact hv.other_target _ _ _ ha h
  | decorate g d =>
    obtain ⟨hev, hat⟩ := member_even hv g
    obtain ⟨ps, hp, hpm⟩ := pairs_spec hev
    have key : ∀ b, b ∈ (normalUses as g).map (fun t => Ann.decorate t d) ++ ps.map (fun p => Ann.member p.1 p.2 d) ↔
        ((∃ t ts, Ann.groupDecorate g ts ∈ as ∧ t ∈ ts ∧ b = .decorate t d) ∨
        ∃ t m ws, Ann.groupMember g ws ∈ as ∧ At t m ws ∧ b = .member t m d) := by
      intro b
      simp only [List.mem_append, List.mem_map, mem_normalUses]
      constructor
      · rintro (⟨t, ⟨ts, h1, h2⟩, rfl⟩ | ⟨⟨t, m⟩, h, rfl⟩)
        · exact .inl ⟨t, ts, h1, h2, rfl⟩
        · obtain ⟨ws, h1, h2⟩ := (hat t m).1 ((hpm t m).1 h)
          exact .inr ⟨t, m, ws, h1, h2, rfl⟩
      · rintro (⟨t, ts, h1, h2, rfl⟩ | ⟨t, m, ws, h1, h2, rfl⟩)
        · exact .inl ⟨t, ⟨ts, h1, h2⟩, rfl⟩
        · exact .inr ⟨(t, m), (hpm t m).2 ((hat t m).2 ⟨ws, h1, h2⟩), rfl⟩
    have hr : replace as (.decorate g d) = (if (normalUses as g).map (fun t => Ann.decorate t d) ++ ps.map (fun p => Ann.member p.1 p.2 d) = [] ∧ g ∉ groupIds as then some [.decorate g d]
        else some ((normalUses as g).map (fun t => Ann.decorate t d) ++ ps.map (fun p => Ann.member p.1 p.2 d))) := by
      simp [replace, hp]
    have hm : ∀ b, (∃ g' d', Ann.decorate g d = .decorate g' d' ∧ ((∃ t ts, Ann.groupDecorate g' ts ∈ as ∧ t ∈ ts ∧ b = .decorate t d') ∨
        ∃ t m ws, Ann.groupMember g' ws ∈ as ∧ At t m ws ∧ b = .member t m d')) ↔
        b ∈ (normalUses as g).map (fun t => Ann.decorate t d) ++ ps.map (fun p => Ann.member p.1 p.2 d) := by
      intro b
      rw [key b]
      constructor
      · rintro ⟨g', d', e, h⟩; cases e; exact h
      · intro h; exact ⟨g, d, rfl, h⟩
    split at hr
    · rename_i hc
      refine ⟨_, hr, fun b => ?_⟩
      rw [hm b, hc.1]
      simp only [List.mem_singleton, List.not_mem_nil, or_false]
      refine ⟨fun h => ⟨h, ?_, by simp, by simp⟩, fun h => h.1⟩
      rintro g' ⟨rfl, h⟩
      exact hc.2 (mem_groupIds.2 h)
    · rename_i hc
      refine ⟨_, hr, fun b => ?_⟩
      rw [hm b]
      refine ⟨.inr, ?_⟩
      rintro (⟨rfl, h, _⟩ | h)
      · exfalso
        have hg : Ann.group g ∉ as := fun h' => h g ⟨rfl, h'⟩
        apply hc
        refine ⟨?_, fun h' => hg (mem_groupIds.1 h')⟩
        rw [List.eq_nil_iff_forall_not_mem]
        intro b hb
        rcases (key b).1 hb with ⟨t, ts, h1, _, _⟩ | ⟨t, m, ws, h1, _, _⟩
        · exact hg (hv.uses _ _ h1)
        · exact hg (hv.member_uses _ _ h1)
      · exact h

theorem flatten_spec {as : List Ann} (hv : Valid as) : ∀ l, (∀ a ∈ l, a ∈ as) → ∃ y, flatten as l = some y ∧
    ∀ b, b ∈ y ↔ ∃ a ∈ l, ∃ x, replace as a = some x ∧ b ∈ x := by
  intro l
  induction l with
  | nil => intro _; exact ⟨[], rfl, by simp⟩
  | cons a l ih =>
    intro h
    obtain ⟨y, hy, hm⟩ := ih (fun b hb => h b (by simp [hb]))
    obtain ⟨x, hx, _⟩ := replace_spec hv (h a (by simp))
    refine ⟨x ++ y, by simp [flatten, hx, hy], fun b => ?_⟩
    rw [List.mem_append, hm b]
    constructor
    · rintro (h | ⟨a', h1, h2⟩)
      · exact ⟨a, by simp, x, hx, h⟩
      · exact ⟨a', by simp [h1], h2⟩
    · rintro ⟨a', h1, x', h2, h3⟩
      rcases List.mem_cons.1 h1 with rfl | h1
      · rw [hx] at h2; cases h2; exact .inl h3
      · exact .inr ⟨a', h1, x', h2, h3⟩

/-- The annotations afterwards. -/
theorem anns_spec {as : List Ann} (hv : Valid as) : ∃ y, flatten as as = some y ∧ ∀ b, b ∈ y ↔
    (b ∈ as ∧ (∀ g, ¬ (Mentions g b ∧ Ann.group g ∈ as)) ∧ (∀ g ts, b ≠ .groupDecorate g ts) ∧
      (∀ g ws, b ≠ .groupMember g ws)) ∨
    ∃ g d, Ann.decorate g d ∈ as ∧ ((∃ t ts, Ann.groupDecorate g ts ∈ as ∧ t ∈ ts ∧ b = .decorate t d) ∨
      ∃ t m ws, Ann.groupMember g ws ∈ as ∧ At t m ws ∧ b = .member t m d) := by
  obtain ⟨y, hy, hm⟩ := flatten_spec hv as (fun _ h => h)
  refine ⟨y, hy, fun b => ?_⟩
  rw [hm b]
  constructor
  · rintro ⟨a, ha, x, hx, hb⟩
    obtain ⟨x', hx', hs⟩ := replace_spec hv ha
    rw [hx] at hx'
    cases hx'
    rcases (hs b).1 hb with ⟨rfl, h⟩ | ⟨g, d, rfl, h⟩
    · exact .inl ⟨ha, h⟩
    · exact .inr ⟨g, d, ha, h⟩
  · rintro (⟨hb, h⟩ | ⟨g, d, hgd, h⟩)
    · obtain ⟨x, hx, hs⟩ := replace_spec hv hb
      exact ⟨b, hb, x, hx, (hs b).2 (.inl ⟨rfl, h⟩)⟩
    · obtain ⟨x, hx, hs⟩ := replace_spec hv hgd
      exact ⟨_, hgd, x, hx, (hs b).2 (.inr ⟨g, d, rfl, h⟩)⟩

/-! ## Names -/

def isName : Name → Bool
  | .name _ _ => true
  | .member _ _ _ => false

theorem names_ok {gs : List Id} : ∀ (r : List Name) (n : Nat) (d : List Name), (∀ x ∈ r, isName x = true) →
    r.length ≤ n → names gs n d r = some (d ++ r.filter (fun x => match x with | .name t _ => t ∉ gs | _ => true)) := by
  intro r
  induction r with
  | nil => intro n d _ _; cases n <;> simp [names]
  | cons x r ih =>
    intro n d h hn
    cases n with
    | zero => simp at hn
    | succ n =>
      cases x with
      | member t m s => simpa [isName] using h _ List.mem_cons_self
      | name t s =>
        have hr := fun y hy => h y (List.mem_cons_of_mem _ hy)
        simp only [List.length_cons] at hn
        rw [names]
        by_cases ht : t ∈ gs
        · rw [if_pos ht, ih n d hr (by omega), List.filter_cons]
          simp [ht]
        · rw [if_neg ht, ih n _ hr (by omega), List.filter_cons]
          simp [ht]

theorem names_stuck {gs : List Id} {t : Id} {m : Word} {s : String} {r : List Name} : ∀ n d,
    names gs n d (.member t m s :: r) = none := by
  intro n
  induction n with
  | zero => intro d; rfl
  | succ n ih => intro d; rw [names]; exact ih d

theorem names_hang {gs : List Id} : ∀ (r : List Name) (n : Nat) (d : List Name), (∃ x ∈ r, isName x = false) →
    names gs n d r = none := by
  intro r
  induction r with
  | nil => rintro n d ⟨x, h, _⟩; cases h
  | cons x r ih =>
    rintro n d ⟨y, hy, hf⟩
    cases x with
    | member t m s => exact names_stuck n d
    | name t s =>
      have : ∃ x ∈ r, isName x = false := by
        rcases List.mem_cons.1 hy with rfl | hy
        · cases hf
        · exact ⟨y, hy, hf⟩
      cases n with
      | zero => rfl
      | succ n =>
        rw [names]
        split
        · exact ih n d this
        · exact ih n _ this

end Verif.Flatten
