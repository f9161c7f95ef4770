import Verif.Ccp.Spec
import Verif.Ccp.Replay
set_option linter.unusedSimpArgs false
set_option linter.unusedVariables false
set_option linter.unusedSectionVars false
/-!
# The table of values while the propagator runs
-/
namespace Verif.Ccp
open Propagator Propagator.Spec Ccp.Spec
variable {I B : Type} [DecidableEq I] [DecidableEq B] {f : Func I B}

/-- kinds with an entry of their own in the table -/
def Kind.result : Kind I B → Bool
  | .phi | .copy _ | .foldable | .assign => true
  | _ => false

theorem meetArgs_spec (v : Table I) (exec : B → Bool) : ∀ (l : List (I × B)) (m : Option I),
    (∀ k, meetArgs v exec l m = .const k →
      (m = some k ∨ (m = none ∧ ∃ a ∈ l, exec a.2 = true ∧ v a.1 = some (.const k))) ∧
      ∀ a ∈ l, exec a.2 = true → v a.1 = none ∨ v a.1 = some (.const k)) ∧
    (meetArgs v exec l m = .undef → m = none ∧ ∀ a ∈ l, exec a.2 = true → v a.1 = none)
  | [], none => by simp [meetArgs]
  | [], some k => by simp [meetArgs]
  | (d, q) :: rest, m => by
    unfold meetArgs
    by_cases hq : exec q = true
    · rw [if_pos hq]
      cases hv : v d with
      | none =>
        dsimp only
        obtain ⟨h1, h2⟩ := meetArgs_spec v exec rest m
        refine ⟨fun k hk => ?_, fun hk => ?_⟩
        · obtain ⟨h3, h4⟩ := h1 k hk
          refine ⟨h3.imp id (And.imp id fun ⟨a, ha⟩ => ⟨a, List.mem_cons_of_mem _ ha.1, ha.2⟩), ?_⟩
          intro a ha hx
          rcases List.mem_cons.mp ha with rfl | ha
          · exact .inl hv
          · exact h4 a ha hx
        · obtain ⟨h3, h4⟩ := h2 hk
          refine ⟨h3, fun a ha hx => ?_⟩
          rcases List.mem_cons.mp ha with rfl | ha
          · exact hv
          · exact h4 a ha hx
      | some x =>
        cases x with
        | varying => simp
        | const k0 =>
          dsimp only
          cases m with
          | none =>
            dsimp only
            obtain ⟨h1, h2⟩ := meetArgs_spec v exec rest (some k0)
            refine ⟨fun k hk => ?_, fun hk => by cases (h2 hk).1⟩
            obtain ⟨h3, h4⟩ := h1 k hk
            have hkk : k0 = k := by rcases h3 with h3 | ⟨h3, -⟩ <;> cases h3; rfl
            subst hkk
            refine ⟨.inr ⟨rfl, (d, q), List.mem_cons_self, hq, hv⟩, fun a ha hx => ?_⟩
            rcases List.mem_cons.mp ha with rfl | ha
            · exact .inr hv
            · exact h4 a ha hx
          | some k' =>
            dsimp only
            by_cases hkk : k0 = k'
            · rw [if_pos hkk]
              subst hkk
              obtain ⟨h1, h2⟩ := meetArgs_spec v exec rest (some k0)
              refine ⟨fun k hk => ?_, fun hk => by cases (h2 hk).1⟩
              obtain ⟨h3, h4⟩ := h1 k hk
              have hkk : k0 = k := by rcases h3 with h3 | ⟨h3, -⟩ <;> cases h3; rfl
              subst hkk
              refine ⟨.inl rfl, fun a ha hx => ?_⟩
              rcases List.mem_cons.mp ha with rfl | ha
              · exact .inr hv
              · exact h4 a ha hx
            · rw [if_neg hkk]; simp
    · rw [if_neg hq]
      obtain ⟨h1, h2⟩ := meetArgs_spec v exec rest m
      refine ⟨fun k hk => ?_, fun hk => ?_⟩
      · obtain ⟨h3, h4⟩ := h1 k hk
        refine ⟨h3.imp id (And.imp id fun ⟨a, ha⟩ => ⟨a, List.mem_cons_of_mem _ ha.1, ha.2⟩), ?_⟩
        intro a ha hx
        rcases List.mem_cons.mp ha with rfl | ha
        · exact absurd hx hq
        · exact h4 a ha hx
      · obtain ⟨h3, h4⟩ := h2 hk
        refine ⟨h3, fun a ha hx => ?_⟩
        rcases List.mem_cons.mp ha with rfl | ha
        · exact absurd hx hq
        · exact h4 a ha hx

/-- Why a visit records a constant. -/
def Source (f : Func I B) (v : Table I) (e : List (B × B)) (i k : I) : Prop :=
  match f.kind i with
  | .phi => ∃ b, f.block i = some b ∧ (∃ a ∈ f.args i, (a.2, b) ∈ e ∧ v a.1 = some (.const k)) ∧
      ∀ a ∈ f.args i, (a.2, b) ∈ e → v a.1 = none ∨ v a.1 = some (.const k)
  | .copy src => v src = some (.const k) ∧ (v i = none ∨ v i = some (.const k))
  | .foldable => f.fold i (mapFunc v) = some k ∧ (v i = none ∨ v i = some (.const k))
  | _ => False

/-- Why a visit does not know. -/
def Unknown (f : Func I B) (v : Table I) (e : List (B × B)) (i : I) : Prop :=
  match f.kind i with
  | .phi => ∀ b, f.block i = some b → ∀ a ∈ f.args i, (a.2, b) ∈ e → v a.1 = none
  | .copy src => v src = none
  | .foldable => f.fold i (mapFunc v) = none ∧ (∃ d ∈ f.inDefs i, v d = none) ∧
      ∀ d ∈ f.inDefs i, v d ≠ some .varying
  | _ => False

theorem assignMeet_spec (v : Table I) (i k : I) :
    ((v i = none ∨ v i = some (.const k)) ∧
      (assignMeet v i k : Table I × Answer B) = (v.set i (.const k), some .interesting, none)) ∨
    (assignMeet v i k : Table I × Answer B) = (v.set i .varying, some .varying, none) := by
  unfold assignMeet latticeMeet
  cases v i with
  | none => exact .inl ⟨.inl rfl, rfl⟩
  | some x =>
    cases x with
    | varying => exact .inr rfl
    | const k' =>
      dsimp only
      by_cases h : k' = k
      · rw [if_pos h]; exact .inl ⟨.inr (by rw [h]), rfl⟩
      · rw [if_neg h]; exact .inr rfl

/-- What a visit of an instruction with a table entry does. -/
theorem visit_result (v : Table I) (e : List (B × B)) (i : I) (h : (f.kind i).result = true) :
    (f.visit v e i = (v, some .notInteresting, none) ∧ Unknown f v e i) ∨
    (∃ k, f.visit v e i = (v.set i (.const k), some .interesting, none) ∧ Source f v e i k) ∨
    f.visit v e i = (v.set i .varying, some .varying, none) := by
  unfold Func.visit Unknown Source
  cases hk : f.kind i with
  | br => rw [hk] at h; cases h
  | cond => rw [hk] at h; cases h
  | switch => rw [hk] at h; cases h
  | effect => rw [hk] at h; cases h
  | assign => exact .inr (.inr rfl)
  | copy src =>
    dsimp only
    cases hv : v src with
    | none => exact .inl ⟨rfl, rfl⟩
    | some x =>
      cases x with
      | varying => exact .inr (.inr rfl)
      | const k =>
        dsimp only
        rcases assignMeet_spec (B := B) v i k with ⟨h1, h2⟩ | h1
        · exact .inr (.inl ⟨k, h2, rfl, h1⟩)
        · exact .inr (.inr h1)
  | foldable =>
    dsimp only
    unfold Func.visitFoldable
    cases hf : f.fold i (mapFunc v) with
    | some k =>
      dsimp only
      rcases assignMeet_spec (B := B) v i k with ⟨h1, h2⟩ | h1
      · exact .inr (.inl ⟨k, h2, rfl, h1⟩)
      · exact .inr (.inr h1)
    | none =>
      dsimp only
      split
      · exact .inr (.inr rfl)
      · next hn =>
        split
        · next hy =>
          rw [List.any_eq_true] at hy
          obtain ⟨d, h1, h2⟩ := hy
          refine .inl ⟨rfl, rfl, ⟨d, h1, by simpa using h2⟩, fun d hd hv => hn ?_⟩
          rw [List.any_eq_true]
          exact ⟨d, hd, by simpa using hv⟩
        · exact .inr (.inr rfl)
  | phi =>
    dsimp only
    unfold Func.visitPhi
    dsimp only
    cases hm : meetArgs v (fun q => match f.block i with
      | some b => decide ((q, b) ∈ e)
      | none => false) (f.args i) none with
    | varying => exact .inr (.inr rfl)
    | undef =>
      obtain ⟨-, h1⟩ := (meetArgs_spec _ _ _ _).2 hm
      refine .inl ⟨rfl, fun b hb a ha he => h1 a ha ?_⟩
      rw [hb]; simpa using he
    | const k =>
      obtain ⟨h1, h2⟩ := (meetArgs_spec _ _ _ _).1 k hm
      rcases h1 with h1 | ⟨-, a, ha, he, hv⟩
      · cases h1
      · cases hb : f.block i with
        | none => rw [hb] at he; cases he
        | some b =>
          rw [hb] at he h2
          refine .inr (.inl ⟨k, rfl, b, rfl, ⟨a, ha, by simpa using he, hv⟩, fun a ha he => h2 a ha (by simpa using he)⟩)

theorem visit_other (v : Table I) (e : List (B × B)) (i : I) (h : (f.kind i).result = false) :
    (f.visit v e i).1 = v ∧ (f.visit v e i).2.1 ≠ some .notInteresting := by
  unfold Func.visit
  cases hk : f.kind i with
  | phi => rw [hk] at h; cases h
  | copy => rw [hk] at h; cases h
  | foldable => rw [hk] at h; cases h
  | assign => rw [hk] at h; cases h
  | br => simp
  | effect => simp
  | cond c t e =>
    dsimp only
    split
    · split <;> simp
    · simp
  | switch c t e =>
    dsimp only
    split
    · split <;> simp
    · simp

/-- Entries only move down. -/
def Le (v v' : Table I) : Prop := ∀ d, v d = none ∨ v' d = v d ∨ v' d = some .varying

theorem Le.refl (v : Table I) : Le v v := fun d => .inr (.inl rfl)

theorem Le.trans {v v' v'' : Table I} (h : Le v v') (h' : Le v' v'') : Le v v'' := by
  intro d
  rcases h d with h1 | h1 | h1
  · exact .inl h1
  · rw [← h1]; exact h' d
  · rcases h' d with h2 | h2 | h2
    · rw [h1] at h2; cases h2
    · exact .inr (.inr (h2.trans h1))
    · exact .inr (.inr h2)

theorem Le.const {v v' : Table I} (h : Le v v') {d k : I} (hd : v d = some .varying ∨ v d = some (.const k)) :
    v' d = some .varying ∨ v' d = some (.const k) := by
  rcases h d with h1 | h1 | h1
  · rw [h1] at hd; simp at hd
  · rw [h1]; exact hd
  · exact .inl h1

theorem Le.some {v v' : Table I} (h : Le v v') {d : I} (hd : v d ≠ none) : v' d ≠ none := by
  rcases h d with h1 | h1 | h1
  · exact absurd h1 hd
  · rw [h1]; exact hd
  · rw [h1]; simp

/-- The table after the calls `t`. -/
structure Good (f : Func I B) (t : List (Call I B)) (v : Table I) : Prop where
  out : ∀ d, f.block d = none → v d = f.init d
  unknown : ∀ d, f.block d ≠ none →
    lastStatus t d = none ∨ lastStatus t d = some .notInteresting ∨ (f.kind d).result = false → v d = none
  found : ∀ d, f.block d ≠ none → (f.kind d).result = true → lastStatus t d = some .interesting →
    ∃ k, v d = some (.const k)
  bottom : ∀ d, f.block d ≠ none → (f.kind d).result = true → lastStatus t d = some .varying →
    v d = some .varying
  phi : ∀ d k b, f.block d = some b → f.kind d = .phi → v d = some (.const k) →
    ∃ a ∈ f.args d, (∃ c ∈ t, (a.2, b) ∈ c.seen) ∧ (v a.1 = some .varying ∨ v a.1 = some (.const k))
  copy : ∀ d src k, f.block d ≠ none → f.kind d = .copy src → v d = some (.const k) → v src ≠ none
  fold : ∀ d k, f.block d ≠ none → f.kind d = .foldable → v d = some (.const k) →
    ∃ v0, Le v0 v ∧ f.fold d (mapFunc v0) ≠ none
  consts : ∀ d k, v d = some (.const k) → f.const k ≠ none

theorem set_self (v : Table I) (i : I) (x : Entry I) : v.set i x i = some x := by simp [Table.set]
theorem set_other (v : Table I) {i j : I} (x : Entry I) (h : j ≠ i) : v.set i x j = v j := by simp [Table.set, h]

/-- Only constants found can differ. -/
theorem Good.known {t : List (Call I B)} {v : Table I} (g : Good f t v) {d : I} (hb : f.block d ≠ none) (h : v d ≠ none) :
    (f.kind d).result = true ∧ ((lastStatus t d = some .interesting ∧ ∃ k, v d = some (.const k)) ∨
      (lastStatus t d = some .varying ∧ v d = some .varying)) := by
  have hr : (f.kind d).result = true := by
    cases hr : (f.kind d).result with
    | true => rfl
    | false => exact absurd (g.unknown d hb (.inr (.inr hr))) h
  refine ⟨hr, ?_⟩
  cases hl : lastStatus t d with
  | none => exact absurd (g.unknown d hb (.inl hl)) h
  | some o =>
    cases o with
    | notInteresting => exact absurd (g.unknown d hb (.inr (.inl hl))) h
    | interesting => exact .inl ⟨rfl, g.found d hb hr hl⟩
    | varying => exact .inr ⟨rfl, g.bottom d hb hr hl⟩

theorem Good.step (fc : ∀ i m k, f.fold i m = some k → f.const k ≠ none) {t : List (Call I B)} {v v' : Table I}
    {c : Call I B} (g : Good f t v)
    (hv : f.visit v c.seen c.inst = (v', some c.status, c.dest))
    (hseen : ∀ c' ∈ t, ∀ x ∈ c'.seen, x ∈ c.seen)
    (hord : ∀ o, lastStatus t c.inst = some o → o.rank ≤ c.status.rank)
    (hnv : lastStatus t c.inst ≠ some .varying) (hb : f.block c.inst ≠ none) :
    Good f (c :: t) v' ∧ Le v v' ∧ ∀ d, v' d ≠ v d → d = c.inst ∧ Changes t c := by
  have hseen' : ∀ {x : B × B}, (∃ c' ∈ t, x ∈ c'.seen) → ∃ c' ∈ c :: t, x ∈ c'.seen :=
    fun ⟨c', h1, h2⟩ => ⟨c', List.mem_cons_of_mem _ h1, h2⟩
  cases hr : (f.kind c.inst).result with
  | false =>
    obtain ⟨h1, h2⟩ := visit_other v c.seen c.inst hr
    rw [hv] at h1 h2
    dsimp only at h1 h2
    subst h1
    refine ⟨⟨g.out, ?_, ?_, ?_, ?_, g.copy, g.fold, g.consts⟩, .refl _, fun d hd => absurd rfl hd⟩
    · intro d hd hl
      by_cases hdc : d = c.inst
      · subst hdc; exact g.unknown _ hd (.inr (.inr hr))
      · rw [lastStatus_cons, if_neg hdc] at hl; exact g.unknown d hd hl
    · intro d hd hr' hl
      by_cases hdc : d = c.inst
      · subst hdc; rw [hr] at hr'; cases hr'
      · rw [lastStatus_cons, if_neg hdc] at hl; exact g.found d hd hr' hl
    · intro d hd hr' hl
      by_cases hdc : d = c.inst
      · subst hdc; rw [hr] at hr'; cases hr'
      · rw [lastStatus_cons, if_neg hdc] at hl; exact g.bottom d hd hr' hl
    · intro d k b h1 h2 h3
      obtain ⟨a, h4, h5, h6⟩ := g.phi d k b h1 h2 h3
      exact ⟨a, h4, hseen' h5, h6⟩
  | true =>
    rcases visit_result v c.seen c.inst hr with ⟨h, hu⟩ | ⟨k, h, hs⟩ | h
    · -- nothing known
      rw [hv] at h
      simp only [Prod.mk.injEq, Option.some.injEq] at h
      obtain ⟨rfl, hst, -⟩ := h
      have hvi : v' c.inst = none := by
        refine g.unknown _ hb ?_
        cases hl : lastStatus t c.inst with
        | none => exact .inl rfl
        | some o =>
          have := hord o hl
          rw [hst] at this
          cases o
          · exact .inr (.inl rfl)
          · simp [Status.rank] at this
          · simp [Status.rank] at this
      refine ⟨⟨g.out, ?_, ?_, ?_, ?_, g.copy, g.fold, g.consts⟩, .refl _, fun d hd => absurd rfl hd⟩
      · intro d hd hl
        by_cases hdc : d = c.inst
        · subst hdc; exact hvi
        · rw [lastStatus_cons, if_neg hdc] at hl; exact g.unknown d hd hl
      · intro d hd hr' hl
        by_cases hdc : d = c.inst
        · rw [lastStatus_cons, if_pos hdc, hst] at hl; cases hl
        · rw [lastStatus_cons, if_neg hdc] at hl; exact g.found d hd hr' hl
      · intro d hd hr' hl
        by_cases hdc : d = c.inst
        · rw [lastStatus_cons, if_pos hdc, hst] at hl; cases hl
        · rw [lastStatus_cons, if_neg hdc] at hl; exact g.bottom d hd hr' hl
      · intro d k b h1 h2 h3
        obtain ⟨a, h4, h5, h6⟩ := g.phi d k b h1 h2 h3
        exact ⟨a, h4, hseen' h5, h6⟩
    · -- a constant
      rw [hv] at h
      simp only [Prod.mk.injEq, Option.some.injEq] at h
      obtain ⟨rfl, hst, -⟩ := h
      have hvi : v c.inst = none ∨ v c.inst = some (.const k) := by
        by_cases hn : v c.inst = none
        · exact .inl hn
        · right
          obtain ⟨-, ⟨-, k0, h0⟩ | ⟨h0, -⟩⟩ := g.known hb hn
          · unfold Source at hs
            cases hk : f.kind c.inst with
            | phi =>
              rw [hk] at hs
              obtain ⟨b, hb', -, hall⟩ := hs
              obtain ⟨a, ha, ⟨c', hc', hx⟩, hva⟩ := g.phi _ _ _ hb' hk h0
              have := hall a ha (hseen c' hc' _ hx)
              rcases hva with hva | hva
              · rw [hva] at this; simp at this
              · rw [hva] at this; simp at this; rw [h0, this]
            | copy => rw [hk] at hs; exact hs.2.resolve_left hn
            | foldable => rw [hk] at hs; exact hs.2.resolve_left hn
            | br => rw [hk] at hs; exact hs.elim
            | cond => rw [hk] at hs; exact hs.elim
            | switch => rw [hk] at hs; exact hs.elim
            | assign => rw [hk] at hs; exact hs.elim
            | effect => rw [hk] at hs; exact hs.elim
          · exact absurd h0 hnv
      have le : Le v (v.set c.inst (.const k)) := by
        intro d
        by_cases hdc : d = c.inst
        · subst hdc
          rcases hvi with h | h
          · exact .inl h
          · exact .inr (.inl (by rw [set_self, h]))
        · exact .inr (.inl (set_other v _ hdc))
      have hck : f.const k ≠ none := by
        unfold Source at hs
        cases hk : f.kind c.inst with
        | phi =>
          rw [hk] at hs
          obtain ⟨b, hb', ⟨a, -, -, h⟩, -⟩ := hs
          exact g.consts _ _ h
        | copy => rw [hk] at hs; exact g.consts _ _ hs.1
        | foldable => rw [hk] at hs; exact fc _ _ _ hs.1
        | br => rw [hk] at hs; exact hs.elim
        | cond => rw [hk] at hs; exact hs.elim
        | switch => rw [hk] at hs; exact hs.elim
        | assign => rw [hk] at hs; exact hs.elim
        | effect => rw [hk] at hs; exact hs.elim
      refine ⟨⟨?_, ?_, ?_, ?_, ?_, ?_, ?_, ?_⟩, le, ?_⟩
      · intro d hd
        have hdc : d ≠ c.inst := fun e => hb (by rw [← e]; exact hd)
        rw [set_other v _ hdc]; exact g.out d hd
      · intro d hd hl
        by_cases hdc : d = c.inst
        · rw [lastStatus_cons, if_pos hdc, hst, hdc, hr] at hl; simp at hl
        · rw [lastStatus_cons, if_neg hdc] at hl; rw [set_other v _ hdc]; exact g.unknown d hd hl
      · intro d hd hr' hl
        by_cases hdc : d = c.inst
        · exact ⟨k, by rw [hdc, set_self]⟩
        · rw [lastStatus_cons, if_neg hdc] at hl; rw [set_other v _ hdc]; exact g.found d hd hr' hl
      · intro d hd hr' hl
        by_cases hdc : d = c.inst
        · rw [lastStatus_cons, if_pos hdc, hst] at hl; cases hl
        · rw [lastStatus_cons, if_neg hdc] at hl; rw [set_other v _ hdc]; exact g.bottom d hd hr' hl
      · intro d k' b h1 h2 h3
        by_cases hdc : d = c.inst
        · subst hdc
          rw [set_self] at h3
          cases h3
          unfold Source at hs
          rw [h2] at hs
          obtain ⟨b', hb', ⟨a, ha, he, hva⟩, -⟩ := hs
          have : b' = b := Option.some.inj (hb'.symm.trans h1)
          subst this
          exact ⟨a, ha, ⟨c, List.mem_cons_self, he⟩, le.const (.inr hva)⟩
        · rw [set_other v _ hdc] at h3
          obtain ⟨a, h4, h5, h6⟩ := g.phi d k' b h1 h2 h3
          exact ⟨a, h4, hseen' h5, le.const h6⟩
      · intro d src k' h1 h2 h3
        by_cases hdc : d = c.inst
        · subst hdc
          unfold Source at hs
          rw [h2] at hs
          exact le.some (by rw [hs.1]; simp)
        · rw [set_other v _ hdc] at h3
          exact le.some (g.copy d src k' h1 h2 h3)
      · intro d k' h1 h2 h3
        by_cases hdc : d = c.inst
        · subst hdc
          unfold Source at hs
          rw [h2] at hs
          exact ⟨v, le, by rw [hs.1]; simp⟩
        · rw [set_other v _ hdc] at h3
          obtain ⟨v0, h4, h5⟩ := g.fold d k' h1 h2 h3
          exact ⟨v0, h4.trans le, h5⟩
      · intro d k' h3
        by_cases hdc : d = c.inst
        · rw [hdc, set_self] at h3; cases h3; exact hck
        · rw [set_other v _ hdc] at h3; exact g.consts d k' h3
      · intro d hd
        by_cases hdc : d = c.inst
        · refine ⟨hdc, by rw [hst]; simp, ?_⟩
          rw [hst]
          intro hl
          rcases hvi with h | h
          · obtain ⟨k0, h0⟩ := g.found _ hb hr hl
            rw [h] at h0; cases h0
          · rw [hdc, set_self, h] at hd; exact hd rfl
        · exact absurd (set_other v _ hdc) hd
    · -- varying
      rw [hv] at h
      simp only [Prod.mk.injEq, Option.some.injEq] at h
      obtain ⟨rfl, hst, -⟩ := h
      have le : Le v (v.set c.inst .varying) := by
        intro d
        by_cases hdc : d = c.inst
        · exact .inr (.inr (by rw [hdc, set_self]))
        · exact .inr (.inl (set_other v _ hdc))
      have ne : ∀ {d k}, v.set c.inst .varying d = some (.const k) → d ≠ c.inst ∧ v d = some (.const k) := by
        intro d k h
        by_cases hdc : d = c.inst
        · rw [hdc, set_self] at h; cases h
        · rw [set_other v _ hdc] at h; exact ⟨hdc, h⟩
      refine ⟨⟨?_, ?_, ?_, ?_, ?_, ?_, ?_, ?_⟩, le, ?_⟩
      · intro d hd
        have hdc : d ≠ c.inst := fun e => hb (by rw [← e]; exact hd)
        rw [set_other v _ hdc]; exact g.out d hd
      · intro d hd hl
        by_cases hdc : d = c.inst
        · rw [lastStatus_cons, if_pos hdc, hst, hdc, hr] at hl; simp at hl
        · rw [lastStatus_cons, if_neg hdc] at hl; rw [set_other v _ hdc]; exact g.unknown d hd hl
      · intro d hd hr' hl
        by_cases hdc : d = c.inst
        · rw [lastStatus_cons, if_pos hdc, hst] at hl; cases hl
        · rw [lastStatus_cons, if_neg hdc] at hl; rw [set_other v _ hdc]; exact g.found d hd hr' hl
      · intro d hd hr' hl
        by_cases hdc : d = c.inst
        · rw [hdc, set_self]
        · rw [lastStatus_cons, if_neg hdc] at hl; rw [set_other v _ hdc]; exact g.bottom d hd hr' hl
      · intro d k' b h1 h2 h3
        obtain ⟨a, h4, h5, h6⟩ := g.phi d k' b h1 h2 (ne h3).2
        exact ⟨a, h4, hseen' h5, le.const h6⟩
      · intro d src k' h1 h2 h3
        exact le.some (g.copy d src k' h1 h2 (ne h3).2)
      · intro d k' h1 h2 h3
        obtain ⟨v0, h4, h5⟩ := g.fold d k' h1 h2 (ne h3).2
        exact ⟨v0, h4.trans le, h5⟩
      · intro d k' h3
        exact g.consts d k' (ne h3).2
      · intro d hd
        by_cases hdc : d = c.inst
        · exact ⟨hdc, by rw [hst]; simp, by rw [hst]; exact hnv⟩
        · exact absurd (set_other v _ hdc) hd

theorem init_good (va : Valid f) : Good f [] f.init where
  out _ _ := rfl
  unknown d hd _ := by
    unfold Func.init
    have : f.global d ≠ true := fun h => hd (va.globals d h)
    rw [if_neg this]
  found d _ _ h := by simp [lastStatus] at h
  bottom d _ _ h := by simp [lastStatus] at h
  phi d k b h _ hv := by
    have : f.global d ≠ true := fun h' => by rw [va.globals d h'] at h; cases h
    unfold Func.init at hv; rw [if_neg this] at hv; cases hv
  copy d _ k h _ hv := by
    have : f.global d ≠ true := fun h' => h (va.globals d h')
    unfold Func.init at hv; rw [if_neg this] at hv; cases hv
  fold d k h _ hv := by
    have : f.global d ≠ true := fun h' => h (va.globals d h')
    unfold Func.init at hv; rw [if_neg this] at hv; cases hv
  consts d k hv := by
    unfold Func.init at hv
    split at hv
    · split at hv
      · next x hx =>
        cases hv
        rw [hx]; simp
      · cases hv
    · cases hv

theorem replay_good (va : Valid f) (fc : ∀ i m k, f.fold i m = some k → f.const k ≠ none)
    {t : List (Call I B)} {v : Table I} (h : Replay f.toProg f.visit f.init t v) : Good f t v := by
  induction h with
  | nil => exact init_good va
  | cons _ hv hs ho hn hb ih => exact (ih.step fc hv hs ho hn hb).1

/-- If an entry changed after the calls `earlier`, a call did it. -/
theorem replay_split (va : Valid f) (fc : ∀ i m k, f.fold i m = some k → f.const k ≠ none) :
    ∀ (later : List (Call I B)) {earlier : List (Call I B)} {v : Table I},
    Replay f.toProg f.visit f.init (later ++ earlier) v → ∃ v1, Replay f.toProg f.visit f.init earlier v1 ∧
      Le v1 v ∧ ∀ d, v d ≠ v1 d → ∃ l1 c l2, later = l1 ++ c :: l2 ∧ c.inst = d ∧ Changes (l2 ++ earlier) c
  | [], earlier, v, h => ⟨v, h, .refl _, fun d hd => absurd rfl hd⟩
  | x :: later, earlier, v', h => by
    cases h with
    | @cons _ v2 _ _ h hv hs ho hn hb =>
      obtain ⟨v1, h1, h2, h3⟩ := replay_split va fc later h
      obtain ⟨-, le, ch⟩ := (replay_good va fc h).step fc hv hs ho hn hb
      refine ⟨v1, h1, h2.trans le, fun d hd => ?_⟩
      by_cases hd' : v' d = v2 d
      · obtain ⟨l1, c, l2, e1, e2, e3⟩ := h3 d (by rw [← hd']; exact hd)
        exact ⟨x :: l1, c, l2, by rw [e1]; rfl, e2, e3⟩
      · obtain ⟨e1, e2⟩ := ch d hd'
        exact ⟨[], x, later, rfl, e1.symm, e2⟩

end Verif.Ccp
