import Verif.EquivRel.Model
set_option linter.unusedSimpArgs false
set_option linter.unusedVariables false
namespace Verif.EquivRel
variable {α : Type} [DecidableEq α]

theorem upd_same {β : Type} (f : α → β) (a : α) (b : β) : upd f a b a = b := by simp [upd]
theorem upd_other {β : Type} (f : α → β) {a x : α} (b : β) (h : x ≠ a) : upd f a b x = f x := by simp [upd, h]

/-- The path of parents from `x` reaches `y`. -/
inductive Up (s : State α) : α → α → Prop where
  | refl (x) : Up s x x
  | step {x p y} : s.parent x = some p → p ≠ x → Up s p y → Up s x y

/-- `r` is the root above `x`. -/
def Root (s : State α) (x r : α) : Prop := Up s x r ∧ s.parent r = some r

structure Inv (s : State α) (rank : α → Nat) : Prop where
  nodup : s.owned.Nodup
  parent : ∀ x ∈ s.owned, ∃ p ∈ s.owned, s.parent x = some p
  dom : ∀ x p, s.parent x = some p → x ∈ s.owned
  rank : ∀ x p, s.parent x = some p → p ≠ x → rank x < rank p
  child : ∀ p c, c ∈ s.children p ↔ s.parent c = some p ∧ c ≠ p
  childNodup : ∀ p, (s.children p).Nodup

theorem Up.trans {s : State α} {x y z : α} (h : Up s x y) (h' : Up s y z) : Up s x z := by
  induction h with
  | refl => exact h'
  | step a b _ ih => exact .step a b (ih h')

theorem Up.rank {s : State α} {rank : α → Nat} (hI : Inv s rank) {x y : α} (h : Up s x y) :
    x = y ∨ rank x < rank y := by
  induction h with
  | refl => exact Or.inl rfl
  | step a b _ ih =>
    have := hI.rank _ _ a b
    rcases ih with rfl | h
    · exact Or.inr this
    · exact Or.inr (by omega)

theorem Up.owned {s : State α} {rank : α → Nat} (hI : Inv s rank) {x y : α} (h : Up s x y)
    (hx : x ∈ s.owned) : y ∈ s.owned := by
  induction h with
  | refl => exact hx
  | step a b _ ih =>
    obtain ⟨p, hp, he⟩ := hI.parent _ hx
    rw [a] at he
    cases he
    exact ih hp

/-- Paths are linear. -/
theorem Up.linear {s : State α} {x y z : α} (h : Up s x y) (h' : Up s x z) : Up s y z ∨ Up s z y := by
  induction h with
  | refl => exact Or.inl h'
  | step a b h ih =>
    cases h' with
    | refl => exact Or.inr (.step a b h)
    | step a' b' h' =>
      rw [a] at a'
      cases a'
      exact ih h'

theorem Up.of_root {s : State α} {r y : α} (h : Up s r y) (hr : s.parent r = some r) : y = r := by
  cases h with
  | refl => rfl
  | step a b _ => rw [hr] at a; cases a; exact absurd rfl b

theorem Root.unique {s : State α} {x r r' : α} (h : Root s x r) (h' : Root s x r') : r = r' := by
  rcases h.1.linear h'.1 with k | k
  · exact (k.of_root h.2).symm
  · exact k.of_root h'.2

/-- Ranks of owned values are bounded. -/
theorem rank_bound (rank : α → Nat) (l : List α) : ∃ n, ∀ x ∈ l, rank x ≤ n := by
  induction l with
  | nil => exact ⟨0, by simp⟩
  | cons a l ih =>
    obtain ⟨n, hn⟩ := ih
    refine ⟨n + rank a, ?_⟩
    intro x hx
    rcases List.mem_cons.mp hx with rfl | hx
    · omega
    · have := hn x hx; omega

theorem exists_root {s : State α} {rank : α → Nat} (hI : Inv s rank) {x : α} (hx : x ∈ s.owned) :
    ∃ r, Root s x r := by
  obtain ⟨n, hn⟩ := rank_bound rank s.owned
  generalize hk : n - rank x = k
  induction k using Nat.strongRecOn generalizing x with
  | _ k ih =>
    obtain ⟨p, hp, he⟩ := hI.parent x hx
    by_cases hpx : p = x
    · subst hpx; exact ⟨p, .refl _, he⟩
    · have h1 := hI.rank _ _ he hpx
      have h2 := hn p hp
      obtain ⟨r, hr⟩ := ih (n - rank p) (by omega) hp rfl
      exact ⟨r, .step he hpx hr.1, hr.2⟩

theorem chase_root {s : State α} {x r : α} (h : Root s x r) : chase s x = some r := by
  obtain ⟨h, hr⟩ := h
  induction h with
  | refl => rw [chase]; simp [hr]
  | step a b _ ih => rw [chase]; simp [a, b, ih hr]

/-- The forests have the same roots. -/
def SameRoots (s s' : State α) : Prop := ∀ x r, Root s x r ↔ Root s' x r

theorem compressStep_spec {s : State α} {rank : α → Nat} (hI : Inv s rank) {r c n : α} (hr : Root s c r)
    (hc : s.parent c = some n) (hn : n ≠ r) :
    ∃ s', compressStep s r c n = some s' ∧ Inv s' rank ∧ SameRoots s s' ∧ s'.owned = s.owned ∧ n ≠ c := by
  have hcr : c ≠ r := by
    rintro rfl
    rw [hr.2] at hc
    cases hc
    exact hn rfl
  have hnc : n ≠ c := by
    rintro rfl
    exact hcr (hr.1.of_root hc).symm
  have hch : c ∈ s.children n := (hI.child n c).mpr ⟨hc, fun h => hnc h.symm⟩
  have hnr : Root s n r := by
    obtain ⟨h1, h2⟩ := hr
    cases h1 with
    | refl => exact absurd rfl hcr
    | step a b h => rw [hc] at a; cases a; exact ⟨h, h2⟩
  have hrank : rank c < rank r := by
    rcases hr.1.rank hI with h | h
    · exact absurd h hcr
    · exact h
  unfold compressStep
  simp only [upd_other _ _ hn, hch, if_true]
  refine ⟨_, rfl, ⟨hI.nodup, ?_, ?_, ?_, ?_, ?_⟩, ?_, rfl, hnc⟩
  · intro x hx
    by_cases h : x = c
    · subst h
      exact ⟨r, hr.1.owned hI hx, by simp [upd]⟩
    · obtain ⟨p, hp, he⟩ := hI.parent x hx
      exact ⟨p, hp, by simp [upd, h, he]⟩
  · intro x p h
    by_cases hx : x = c
    · subst hx; exact hI.dom _ _ hc
    · simp only [upd, hx, if_false] at h; exact hI.dom _ _ h
  · intro x p h hpx
    by_cases hx : x = c
    · subst hx
      simp only [upd_same, Option.some.injEq] at h
      subst h
      exact hrank
    · simp only [upd, hx, if_false] at h; exact hI.rank _ _ h hpx
  · intro p x
    by_cases hpn : p = n
    · subst hpn
      simp only [upd_same]
      rw [List.Nodup.mem_erase_iff (hI.childNodup p), hI.child]
      by_cases hx : x = c
      · subst hx
        simp [upd, Ne.symm hn]
      · simp [upd, hx]
    · dsimp only; rw [upd_other _ _ hpn]
      by_cases hpr : p = r
      · subst hpr
        simp only [upd_same, List.mem_append, List.mem_singleton, hI.child]
        by_cases hx : x = c
        · subst hx; simp [upd, hcr]
        · simp [upd, hx]
      · rw [upd_other _ _ hpr, hI.child]
        by_cases hx : x = c
        · subst hx
          simp only [upd_same, Option.some.injEq]
          rw [hc]
          constructor
          · rintro ⟨h, _⟩; cases h; exact absurd rfl hpn
          · rintro ⟨h, _⟩; exact absurd h.symm hpr
        · simp [upd, hx]
  · intro p
    by_cases hpn : p = n
    · subst hpn
      simp only [upd_same]
      exact (hI.childNodup p).erase _
    · dsimp only; rw [upd_other _ _ hpn]
      by_cases hpr : p = r
      · subst hpr
        simp only [upd_same]
        rw [List.nodup_append]
        refine ⟨hI.childNodup p, by simp, ?_⟩
        intro a ha b hb
        simp only [List.mem_singleton] at hb
        subst hb
        rintro rfl
        rw [hI.child] at ha
        rw [hc] at ha
        exact hn (by cases ha.1; rfl)
      · rw [upd_other _ _ hpr]; exact hI.childNodup p
  · -- same roots
    have e1 : ∀ x y, Root s x y → Root ⟨s.owned, upd s.parent c (some r),
        upd (upd s.children r (s.children r ++ [c])) n ((s.children n).erase c)⟩ x y := by
      rintro x y ⟨h, hy⟩
      have hyc : y ≠ c := by
        rintro rfl
        rw [hc] at hy
        cases hy
        exact hnc rfl
      refine ⟨?_, by simp [upd, hyc, hy]⟩
      have hrr : upd s.parent c (some r) r = some r := by simp [upd, Ne.symm hcr, hr.2]
      induction h with
      | refl => exact .refl _
      | @step x p y a b h ih =>
        by_cases hx : x = c
        · subst hx
          have hy' : y = r := Root.unique ⟨.step a b h, hy⟩ hr
          subst hy'
          exact .step (p := y) (by simp [upd]) (Ne.symm hcr) (.refl _)
        · exact .step (p := p) (by simp [upd, hx, a]) b (ih hy hyc)
    intro x y
    constructor
    · exact e1 x y
    · intro h
      have hx : x ∈ s.owned ∨ x = y := by
        obtain ⟨h, _⟩ := h
        cases h with
        | refl => exact Or.inr rfl
        | step a b _ =>
          left
          by_cases hx : x = c
          · subst hx; exact hI.dom _ _ hc
          · simp only [upd, hx, if_false] at a; exact hI.dom _ _ a
      have hx' : x ∈ s.owned := by
        rcases hx with hx | rfl
        · exact hx
        · have := h.2
          by_cases hx : x = c
          · subst hx; exact hI.dom _ _ hc
          · simp only [upd, hx, if_false] at this; exact hI.dom _ _ this
      obtain ⟨r', hr'⟩ := exists_root hI hx'
      have := Root.unique h (e1 x r' hr')
      subst this
      exact hr'

theorem compress_spec {s : State α} {rank : α → Nat} (hI : Inv s rank) {r c : α} (hr : Root s c r) :
    ∃ s', compress s r c = some s' ∧ Inv s' rank ∧ SameRoots s s' ∧ s'.owned = s.owned := by
  obtain ⟨n, hn⟩ := rank_bound rank s.owned
  generalize hk : n - rank c = k
  induction k using Nat.strongRecOn generalizing s c with
  | _ k ih =>
    have hc : c ∈ s.owned := by
      obtain ⟨h1, h2⟩ := hr
      cases h1 with
      | refl => exact hI.dom _ _ h2
      | step a _ _ => exact hI.dom _ _ a
    obtain ⟨p, hp, he⟩ := hI.parent c hc
    rw [compress]
    simp only [he]
    by_cases hpr : p = r
    · exact ⟨s, by simp [hpr], hI, fun _ _ => Iff.rfl, rfl⟩
    · obtain ⟨s1, h1, hI1, hS, hO, hpc⟩ := compressStep_spec hI hr he hpr
      simp only [hpr, if_false, h1]
      have hr1 : Root s p r := by
        obtain ⟨h1, h2⟩ := hr
        cases h1 with
        | refl => rw [h2] at he; cases he; exact absurd rfl hpr
        | step a b h => rw [he] at a; cases a; exact ⟨h, h2⟩
      have hlt := hI.rank _ _ he hpc
      have hb := hn p hp
      obtain ⟨s2, h2, hI2, hS2, hO2⟩ := ih (n - rank p) (by omega) hI1 ((hS _ _).mp hr1) (by rw [hO]; exact hn) rfl
      exact ⟨s2, h2, hI2, fun x y => (hS x y).trans (hS2 x y), hO2.trans hO⟩

theorem find_spec {s : State α} {rank : α → Nat} (hI : Inv s rank) {v : α} (hv : v ∈ s.owned) :
    ∃ r s', find s v = some (r, s') ∧ Root s v r ∧ Inv s' rank ∧ SameRoots s s' ∧ s'.owned = s.owned := by
  obtain ⟨r, hr⟩ := exists_root hI hv
  obtain ⟨s', h1, h2, h3, h4⟩ := compress_spec hI hr
  refine ⟨r, s', ?_, hr, h2, h3, h4⟩
  unfold find
  simp [hv, chase_root hr, h1]

theorem find_none {s : State α} {v : α} (hv : v ∉ s.owned) : find s v = none := by
  unfold find; simp [hv]

/-- Two values have the same root. -/
def Same (s : State α) (a b : α) : Prop := ∃ r, Root s a r ∧ Root s b r

theorem Same.congr {s s' : State α} (h : SameRoots s s') (a b : α) : Same s a b ↔ Same s' a b := by
  unfold Same
  constructor
  · rintro ⟨r, h1, h2⟩; exact ⟨r, (h _ _).mp h1, (h _ _).mp h2⟩
  · rintro ⟨r, h1, h2⟩; exact ⟨r, (h _ _).mpr h1, (h _ _).mpr h2⟩

theorem Root.owned {s : State α} {rank : α → Nat} (hI : Inv s rank) {x r : α} (h : Root s x r) : x ∈ s.owned := by
  obtain ⟨h1, h2⟩ := h
  cases h1 with
  | refl => exact hI.dom _ _ h2
  | step a _ _ => exact hI.dom _ _ a

theorem register_spec {s : State α} {rank : α → Nat} (hI : Inv s rank) {v : α} (hv : v ∉ s.owned) :
    ∃ s', register s v = some s' ∧ Inv s' rank ∧ s'.owned = s.owned ++ [v] ∧
      ∀ a b, Same s' a b ↔ Same s a b ∨ (a = v ∧ b = v) := by
  have hpv : s.parent v = none := by
    cases h : s.parent v with
    | none => rfl
    | some p => exact absurd (hI.dom _ _ h) hv
  unfold register
  simp only [hv, if_false]
  have hinv : Inv ⟨s.owned ++ [v], upd s.parent v (some v), upd s.children v []⟩ rank := by
    refine ⟨?_, ?_, ?_, ?_, ?_, ?_⟩
    · rw [List.nodup_append]
      refine ⟨hI.nodup, by simp, ?_⟩
      intro a ha b hb
      simp only [List.mem_singleton] at hb
      subst hb
      rintro rfl
      exact hv ha
    · intro x hx
      by_cases h : x = v
      · subst h; exact ⟨x, by simp, by simp [upd]⟩
      · simp only [List.mem_append, List.mem_singleton, h, or_false] at hx
        obtain ⟨p, hp, he⟩ := hI.parent x hx
        exact ⟨p, by simp [hp], by simp [upd, h, he]⟩
    · intro x p h
      by_cases hx : x = v
      · simp [hx]
      · simp only [upd, hx, if_false] at h; simp [hI.dom _ _ h]
    · intro x p h hp
      by_cases hx : x = v
      · subst hx
        simp only [upd_same, Option.some.injEq] at h
        exact absurd h.symm hp
      · simp only [upd, hx, if_false] at h; exact hI.rank _ _ h hp
    · intro p c
      by_cases hp : p = v
      · subst hp
        simp only [upd_same, List.not_mem_nil, false_iff, not_and, Decidable.not_not]
        by_cases hc : c = p
        · simp [hc]
        · simp only [upd, hc, if_false]
          intro h
          obtain ⟨q, hq, he⟩ := hI.parent c (hI.dom _ _ h)
          rw [h] at he
          cases he
          exact absurd hq hv
      · dsimp only; rw [upd_other _ _ hp, hI.child]
        by_cases hc : c = v
        · subst hc; simp [hpv, upd, Ne.symm hp]
        · simp [upd, hc]
    · intro p
      by_cases hp : p = v
      · subst hp; simp [upd]
      · dsimp only; rw [upd_other _ _ hp]; exact hI.childNodup p
  refine ⟨_, rfl, hinv, rfl, ?_⟩
  have e1 : ∀ x r, Root s x r → Root ⟨s.owned ++ [v], upd s.parent v (some v), upd s.children v []⟩ x r := by
    rintro x r ⟨h, hr⟩
    have hrv : r ≠ v := by rintro rfl; rw [hpv] at hr; cases hr
    refine ⟨?_, by simp [upd, hrv, hr]⟩
    induction h with
    | refl => exact .refl _
    | @step x p y a b h ih =>
      have hx : x ≠ v := by rintro rfl; rw [hpv] at a; cases a
      exact .step (p := p) (by simp [upd, hx, a]) b (ih hr hrv)
  have ev : Root ⟨s.owned ++ [v], upd s.parent v (some v), upd s.children v []⟩ v v := ⟨.refl _, by simp [upd]⟩
  have e2 : ∀ x r, Root ⟨s.owned ++ [v], upd s.parent v (some v), upd s.children v []⟩ x r → Root s x r ∨ (x = v ∧ r = v) := by
    intro x r h
    have hx := h.owned hinv
    simp only [List.mem_append, List.mem_singleton] at hx
    rcases hx with hx | rfl
    · obtain ⟨r', hr'⟩ := exists_root hI hx
      rw [h.unique (e1 _ _ hr')]
      exact Or.inl hr'
    · exact Or.inr ⟨rfl, h.unique ev⟩
  intro a b
  constructor
  · rintro ⟨r, ha, hb⟩
    rcases e2 _ _ ha with ha | ⟨rfl, rfl⟩
    · rcases e2 _ _ hb with hb | ⟨_, hrv⟩
      · exact Or.inl ⟨r, ha, hb⟩
      · have := ha.2; rw [hrv, hpv] at this; cases this
    · rcases e2 _ _ hb with hb' | ⟨rfl, _⟩
      · have := hb'.2; rw [hpv] at this; cases this
      · exact Or.inr ⟨rfl, rfl⟩
  · rintro (⟨r, ha, hb⟩ | ⟨rfl, rfl⟩)
    · exact ⟨r, e1 _ _ ha, e1 _ _ hb⟩
    · exact ⟨_, ev, ev⟩

/-- Joining two roots. -/
theorem join_spec {s : State α} {rank : α → Nat} (hI : Inv s rank) {p q : α} (hp : s.parent p = some p)
    (hq : s.parent q = some q) (hne : p ≠ q) :
    ∃ rank', Inv ⟨s.owned, upd s.parent p (some q), upd s.children q (s.children q ++ [p])⟩ rank' ∧
      ∀ x r, Root s x r → Root ⟨s.owned, upd s.parent p (some q), upd s.children q (s.children q ++ [p])⟩ x
        (if r = p then q else r) := by
  obtain ⟨n, hn⟩ := rank_bound rank s.owned
  refine ⟨fun x => if x = q then n + 1 else rank x, ⟨hI.nodup, ?_, ?_, ?_, ?_, ?_⟩, ?_⟩
  · intro x hx
    by_cases h : x = p
    · subst h; exact ⟨q, hI.dom _ _ hq, by simp [upd]⟩
    · obtain ⟨y, hy, he⟩ := hI.parent x hx
      exact ⟨y, hy, by simp [upd, h, he]⟩
  · intro x y h
    by_cases hx : x = p
    · subst hx; exact hI.dom _ _ hp
    · simp only [upd, hx, if_false] at h; exact hI.dom _ _ h
  · intro x y h hy
    by_cases hx : x = p
    · subst hx
      simp only [upd_same, Option.some.injEq] at h
      subst h
      have := hn x (hI.dom _ _ hp)
      simp only [if_true, hne, if_false]
      omega
    · simp only [upd, hx, if_false] at h
      have h1 := hI.rank _ _ h hy
      have h2 := hn x (hI.dom _ _ h)
      have hxq : x ≠ q := by
        rintro rfl
        rw [hq] at h
        cases h
        exact hy rfl
      simp only [hxq, if_false]
      split <;> omega
  · intro y c
    by_cases hy : y = q
    · subst hy
      simp only [upd_same, List.mem_append, List.mem_singleton, hI.child]
      by_cases hc : c = p
      · subst hc; simp [upd, hne]
      · simp [upd, hc]
    · dsimp only; rw [upd_other _ _ hy, hI.child]
      by_cases hc : c = p
      · subst hc
        simp only [upd_same, Option.some.injEq, hp]
        constructor
        · rintro ⟨h1, h2⟩; exact absurd h1 h2
        · rintro ⟨h, _⟩; exact absurd h.symm hy
      · simp [upd, hc]
  · intro y
    by_cases hy : y = q
    · subst hy
      simp only [upd_same]
      rw [List.nodup_append]
      refine ⟨hI.childNodup y, by simp, ?_⟩
      intro a ha b hb
      simp only [List.mem_singleton] at hb
      subst hb
      rintro rfl
      rw [hI.child, hp] at ha
      exact hne (by cases ha.1; rfl)
    · dsimp only; rw [upd_other _ _ hy]; exact hI.childNodup y
  · rintro x r ⟨h, hr⟩
    induction h with
    | refl x =>
      by_cases hx : x = p
      · subst hx
        simp only [if_true]
        exact ⟨.step (p := q) (by simp [upd]) (Ne.symm hne) (.refl _), by simp [upd, Ne.symm hne, hq]⟩
      · simp only [hx, if_false]
        exact ⟨.refl _, by simp [upd, hx, hr]⟩
    | @step x y z a b h ih =>
      have hx : x ≠ p := by
        rintro rfl
        rw [hp] at a
        cases a
        exact b rfl
      obtain ⟨i1, i2⟩ := ih hr
      exact ⟨.step (p := y) (by simp [upd, hx, a]) b i1, i2⟩

theorem makeEquivalent_spec {s : State α} {rank : α → Nat} (hI : Inv s rank) {a b : α} (ha : a ∈ s.owned)
    (hb : b ∈ s.owned) :
    ∃ s' rank', makeEquivalent s a b = some s' ∧ Inv s' rank' ∧ s'.owned = s.owned ∧
      ∀ x y, Same s' x y ↔ Same s x y ∨ (Same s x a ∧ Same s b y) ∨ (Same s x b ∧ Same s a y) := by
  obtain ⟨ra, s1, f1, r1, I1, S1, O1⟩ := find_spec hI ha
  obtain ⟨rb, s2, f2, r2, I2, S2, O2⟩ := find_spec I1 (O1 ▸ hb)
  unfold makeEquivalent
  simp only [ha, hb, and_self, if_true]
  have hrb : Root s b rb := (S1 _ _).mpr r2
  have hsame : ra = rb → ∀ x y, Same s x y ↔ Same s x y ∨ (Same s x a ∧ Same s b y) ∨ (Same s x b ∧ Same s a y) := by
    rintro rfl x y
    constructor
    · exact Or.inl
    · rintro (h | ⟨⟨q, h1, h2⟩, ⟨q', h3, h4⟩⟩ | ⟨⟨q, h1, h2⟩, ⟨q', h3, h4⟩⟩)
      · exact h
      · have e1 := h2.unique r1
        have e2 := h3.unique hrb
        subst e1 e2
        exact ⟨_, h1, h4⟩
      · have e1 := h2.unique hrb
        have e2 := h3.unique r1
        subst e1 e2
        exact ⟨_, h1, h4⟩
  by_cases hab : a = b
  · subst hab
    have : ra = rb := r1.unique hrb
    exact ⟨s, rank, by simp, hI, rfl, hsame this⟩
  · simp only [hab, if_false, f1, f2]
    by_cases hr : ra = rb
    · refine ⟨s2, rank, by simp [hr], I2, O2.trans O1, ?_⟩
      intro x y
      rw [← Same.congr S2, ← Same.congr S1]
      exact hsame hr x y
    · have hA : s2.parent ra = some ra := ((S2 _ _).mp ((S1 _ _).mp r1)).2
      have hB : s2.parent rb = some rb := ((S2 _ _).mp r2).2
      obtain ⟨rank', hI', hroot⟩ := join_spec I2 hA hB hr
      simp only [ne_eq, hr, not_false_eq_true, if_true]
      refine ⟨_, rank', rfl, hI', O2.trans O1, ?_⟩
      have hto : ∀ x r, Root s x r ↔ Root s2 x r := fun x r => (S1 x r).trans (S2 x r)
      intro x y
      constructor
      · rintro ⟨r, hx, hy⟩
        have ox := hx.owned hI'
        have oy := hy.owned hI'
        obtain ⟨qx, hqx⟩ := exists_root I2 ox
        obtain ⟨qy, hqy⟩ := exists_root I2 oy
        have e1 := hx.unique (hroot _ _ hqx)
        have e2 := hy.unique (hroot _ _ hqy)
        have e : (if qx = ra then rb else qx) = (if qy = ra then rb else qy) := by rw [← e1, ← e2]
        have kx := (hto _ _).mpr hqx
        have ky := (hto _ _).mpr hqy
        by_cases h1 : qx = ra
        · subst h1
          by_cases h2 : qy = qx
          · subst h2; exact Or.inl ⟨_, kx, ky⟩
          · simp only [if_true, h2, if_false] at e
            subst e
            exact Or.inr (Or.inl ⟨⟨_, kx, r1⟩, ⟨_, hrb, ky⟩⟩)
        · by_cases h2 : qy = ra
          · subst h2
            simp only [if_true, h1, if_false] at e
            subst e
            exact Or.inr (Or.inr ⟨⟨_, kx, hrb⟩, ⟨_, r1, ky⟩⟩)
          · simp only [h1, h2, if_false] at e
            subst e
            exact Or.inl ⟨_, kx, ky⟩
      · have ka := (hto _ _).mp r1
        have kb := (hto _ _).mp hrb
        rintro (⟨q, h1, h2⟩ | ⟨⟨q, h1, h2⟩, ⟨q', h3, h4⟩⟩ | ⟨⟨q, h1, h2⟩, ⟨q', h3, h4⟩⟩)
        · exact ⟨_, hroot _ _ ((hto _ _).mp h1), hroot _ _ ((hto _ _).mp h2)⟩
        · have e1 := h2.unique r1
          have e2 := h3.unique hrb
          subst e1 e2
          have g1 := hroot _ _ ((hto _ _).mp h1)
          have g2 := hroot _ _ ((hto _ _).mp h4)
          simp only [if_true, Ne.symm hr, if_false] at g1 g2
          exact ⟨_, g1, g2⟩
        · have e1 := h2.unique hrb
          have e2 := h3.unique r1
          subst e1 e2
          have g1 := hroot _ _ ((hto _ _).mp h1)
          have g2 := hroot _ _ ((hto _ _).mp h4)
          simp only [if_true, Ne.symm hr, if_false] at g1 g2
          exact ⟨_, g1, g2⟩

theorem isEquivalent_spec {s : State α} {rank : α → Nat} (hI : Inv s rank) {a b : α} (ha : a ∈ s.owned)
    (hb : b ∈ s.owned) :
    ∃ r s', isEquivalent s a b = some (r, s') ∧ (r = true ↔ Same s a b) ∧ Inv s' rank ∧ SameRoots s s' ∧
      s'.owned = s.owned := by
  obtain ⟨ra, s1, f1, r1, I1, S1, O1⟩ := find_spec hI ha
  obtain ⟨rb, s2, f2, r2, I2, S2, O2⟩ := find_spec I1 (O1 ▸ hb)
  refine ⟨decide (ra = rb), s2, by simp [isEquivalent, f1, f2], ?_, I2, fun x y => (S1 x y).trans (S2 x y), O2.trans O1⟩
  have hrb : Root s b rb := (S1 _ _).mpr r2
  simp only [decide_eq_true_eq]
  constructor
  · rintro rfl; exact ⟨_, r1, hrb⟩
  · rintro ⟨q, h1, h2⟩; exact (r1.unique h1).trans (h2.unique hrb)

/-! ## Traversal -/

/-- What the traversal of the trees at `cs` does. -/
def Lists (s : State α) (cs l : List α) : Prop :=
  (∀ rest acc, traverse s (cs ++ rest) acc = traverse s rest (acc ++ l)) ∧
  (∀ y, y ∈ l ↔ ∃ c ∈ cs, Up s y c) ∧ l.Nodup

theorem lists_children {s : State α} (cs : List α) (hnd : cs.Nodup)
    (hdis : ∀ c ∈ cs, ∀ c' ∈ cs, ∀ y, Up s y c → Up s y c' → c = c')
    (h : ∀ c ∈ cs, ∃ l, Lists s [c] l) : ∃ l, Lists s cs l := by
  induction cs with
  | nil => exact ⟨[], by simp, by simp, by simp⟩
  | cons c cs ih =>
    obtain ⟨l1, a1, a2, a3⟩ := h c (by simp)
    obtain ⟨l2, b1, b2, b3⟩ := ih (List.nodup_cons.mp hnd).2
      (fun x hx y hy => hdis x (by simp [hx]) y (by simp [hy])) (fun x hx => h x (by simp [hx]))
    refine ⟨l1 ++ l2, ?_, ?_, ?_⟩
    · intro rest acc
      have := a1 (cs ++ rest) acc
      simp only [List.singleton_append] at this
      rw [List.cons_append, this, b1, List.append_assoc]
    · intro y
      simp only [List.mem_append, a2, b2, List.mem_cons, exists_eq_or_imp, List.mem_singleton,
        exists_eq_left]
      simp
    · rw [List.nodup_append]
      refine ⟨a3, b3, ?_⟩
      intro x hx y hy
      rintro rfl
      obtain ⟨c1, h1, u1⟩ := (a2 x).mp hx
      obtain ⟨c2, h2, u2⟩ := (b2 x).mp hy
      simp only [List.mem_singleton] at h1
      subst h1
      have := hdis c1 (by simp) c2 (by simp [h2]) x u1 u2
      subst this
      exact (List.nodup_cons.mp hnd).1 h2

theorem lists_one {s : State α} {rank : α → Nat} (hI : Inv s rank) (x : α) : ∃ l, Lists s [x] l := by
  generalize hk : rank x = k
  induction k using Nat.strongRecOn generalizing x with
  | _ k ih =>
    have hch : ∀ c ∈ (s.children x).reverse, s.parent c = some x ∧ c ≠ x := by
      intro c hc
      exact (hI.child x c).mp (by simpa using hc)
    obtain ⟨l, h1, h2, h3⟩ := lists_children (s := s) (s.children x).reverse
      (List.Pairwise.imp (fun h => Ne.symm h) (List.pairwise_reverse.mpr (List.Pairwise.imp (fun h => Ne.symm h) (hI.childNodup x))) |>.imp (fun h => Ne.symm h))
      (by
        intro c hc c' hc' y u u'
        obtain ⟨p1, n1⟩ := hch c hc
        obtain ⟨p2, n2⟩ := hch c' hc'
        have r1 := hI.rank _ _ p1 (Ne.symm n1)
        have r2 := hI.rank _ _ p2 (Ne.symm n2)
        rcases u.linear u' with w | w
        · cases w with
          | refl => rfl
          | step a b w =>
            rw [p1] at a
            cases a
            rcases w.rank hI with e | e
            · exact absurd e.symm n2
            · omega
        · cases w with
          | refl => rfl
          | step a b w =>
            rw [p2] at a
            cases a
            rcases w.rank hI with e | e
            · exact absurd e.symm n1
            · omega)
      (by
        intro c hc
        obtain ⟨p1, n1⟩ := hch c hc
        have r1 := hI.rank _ _ p1 (Ne.symm n1)
        exact ih (rank c) (by omega) c rfl)
    refine ⟨x :: l, ?_, ?_, ?_⟩
    · intro rest acc
      rw [List.singleton_append, traverse]
      rw [h1]
      simp
    · intro y
      simp only [List.mem_cons, h2, List.mem_singleton, exists_eq_left, List.not_mem_nil, or_false]
      constructor
      · rintro (rfl | ⟨c, hc, u⟩)
        · exact .refl _
        · obtain ⟨p1, n1⟩ := hch c hc
          exact u.trans (.step p1 (Ne.symm n1) (.refl _))
      · intro u
        have : ∀ {y z}, Up s y z → z = x → y = x ∨ ∃ c, c ∈ (s.children x).reverse ∧ Up s y c := by
          intro y z u
          induction u with
          | refl => exact fun h => Or.inl h
          | @step y p z a b u ih =>
            intro hz
            rcases ih hz with rfl | ⟨c, hc, u'⟩
            · exact Or.inr ⟨y, by simpa using (hI.child p y).mpr ⟨a, Ne.symm b⟩, .refl _⟩
            · exact Or.inr ⟨c, hc, .step a b u'⟩
        exact this u rfl
    · rw [List.nodup_cons]
      refine ⟨?_, h3⟩
      intro hx
      obtain ⟨c, hc, u⟩ := (h2 x).mp hx
      obtain ⟨p1, n1⟩ := hch c hc
      have r1 := hI.rank _ _ p1 (Ne.symm n1)
      rcases u.rank hI with e | e
      · exact n1 e.symm
      · omega

theorem class_spec {s : State α} {rank : α → Nat} (hI : Inv s rank) {v : α} (hv : v ∈ s.owned) :
    ∃ l s', equivalenceClass s v = some (l, s') ∧ l.Nodup ∧ (∀ y, y ∈ l ↔ Same s v y) ∧ Inv s' rank ∧
      SameRoots s s' ∧ s'.owned = s.owned := by
  obtain ⟨r, s1, f1, r1, I1, S1, O1⟩ := find_spec hI hv
  obtain ⟨l, h1, h2, h3⟩ := lists_one I1 r
  have ht := h1 [] []
  rw [traverse.eq_def (stack := [])] at ht
  simp only [List.append_nil, List.nil_append] at ht
  refine ⟨l, s1, by simp [equivalenceClass, hv, f1, ht], h3, ?_, I1, S1, O1⟩
  have hr1 := (S1 _ _).mp r1
  intro y
  rw [h2]
  simp only [List.mem_singleton, exists_eq_left]
  constructor
  · intro u; exact ⟨r, r1, (S1 _ _).mpr ⟨u, hr1.2⟩⟩
  · rintro ⟨q, g1, g2⟩
    have := g1.unique r1
    subst this
    exact ((S1 _ _).mp g2).1

end Verif.EquivRel
