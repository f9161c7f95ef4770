import Verif.DeadConst.Lemmas

/-!
# C46: dead constant elimination removes exactly the constants nothing needs
-/
set_option linter.unusedSimpArgs false

namespace Verif.DeadConst

open Verif.DefUse (Kind isUseType upd)

namespace Spec

/-- An operand that refers to an id defined elsewhere. -/
def RefKind (k : Kind) : Prop := k ≠ .resultId ∧ k ≠ .lit

/-- The instruction refers to the id. -/
def Refers (u : Inst) (id : Id) : Prop := ∃ k, RefKind k ∧ (k, id) ∈ u.operands

/-- Constants. -/
def Const (u : Inst) : Prop := u.cls = .composite ∨ u.cls = .constant

/-- Annotations, names and debug text do not count. -/
def Program (u : Inst) : Prop := Const u ∨ u.cls = .other

/-- The id of a constant of the module. -/
def ConstId (m : List Inst) (c : Id) : Prop := ∃ u ∈ m, Const u ∧ u.result = c

/-- A program instruction refers to the id, directly or through constants. -/
inductive Needed (m : List Inst) : Id → Prop
  | direct {u c} : u ∈ m → u.cls = .other → Refers u c → Needed m c
  | via {u c} : u ∈ m → Const u → Needed m u.result → Refers u c → Needed m c

/-- Ids are defined once, and constants have one. -/
structure OneDef (m : List Inst) : Prop where
  const : ∀ u ∈ m, Const u → u.result ≠ 0
  once : ∀ (a b : Nat) (x y : Inst), m[a]? = some x → m[b]? = some y → x.result = y.result →
    x.result ≠ 0 → a = b

/-- Constants refer only to constants before them, and only through the operands of the
three opcodes that the pass follows. -/
structure Regular (m : List Inst) : Prop where
  ordered : ∀ m1 u m2, m = m1 ++ u :: m2 → Const u → ∀ c, ConstId m c → Refers u c →
    ∃ v ∈ m1, v.result = c
  followed : ∀ u ∈ m, Const u → ∀ k c, (k, c) ∈ u.operands → RefKind k → ConstId m c →
    u.cls = .composite ∧ k = .id

/-- In-operand `k` is what a name or decoration applies to. -/
def Target (u : Inst) (k : Nat) : Prop :=
  ((u.cls = .annotation ∨ u.cls = .name) ∧ k = 0) ∨ (u.cls = .groupDecorate ∧ 1 ≤ k)

end Spec

theorem refKind_iff (k : Kind) : Spec.RefKind k ↔ isUseType k = true := by
  cases k <;> simp [Spec.RefKind, isUseType]

theorem refers_iff (u : Inst) (c : Id) : Spec.Refers u c ↔ 0 < usesIn u c := by
  unfold Spec.Refers usesIn
  rw [List.length_pos_iff_exists_mem]
  simp only [refKind_iff, List.mem_filter, Bool.and_eq_true, beq_iff_eq]
  constructor
  · rintro ⟨k, h1, h2⟩; exact ⟨(k, c), h2, h1, rfl⟩
  · rintro ⟨⟨k, x⟩, h1, h2, rfl⟩; exact ⟨k, h2, h1⟩

theorem const_iff (u : Inst) : Spec.Const u ↔ isConst u.cls = true := by
  unfold Spec.Const isConst; simp

theorem program_iff (u : Inst) : Spec.Program u ↔ excluded u.cls = false := by
  unfold Spec.Program Spec.Const excluded
  cases u.cls <;> simp

theorem constId_iff (m : List Inst) (c : Id) :
    Spec.ConstId m c ↔ c ∈ (constants m).map (·.result) := by
  unfold Spec.ConstId constants
  simp only [const_iff, List.mem_map, List.mem_filter]
  constructor
  · rintro ⟨u, h1, h2, h3⟩; exact ⟨u, ⟨h1, h2⟩, h3⟩
  · rintro ⟨u, ⟨h1, h2⟩, h3⟩; exact ⟨u, h1, h2, h3⟩

theorem oneDef_of {m : List Inst} (h : Spec.OneDef m) : OneDef m := by
  refine ⟨fun u hu hc => h.const u hu ((const_iff u).mpr hc), ?_⟩
  rw [List.pairwise_iff_getElem]
  intro a b ha hb hab he
  by_cases h0 : m[a].result = 0
  · exact h0
  · have := h.once a b _ _ (List.getElem?_eq_getElem ha) (List.getElem?_eq_getElem hb) he h0
    omega

theorem needed_not_dead {m : List Inst} {c : Id} (h : Spec.Needed m c) : ¬ Dead m c := by
  induction h with
  | @direct u c hu hc hr =>
    rintro ⟨_, _, h1, _⟩
    have h2 := h1 u hu (by rw [hc]; rfl)
    rw [refers_iff] at hr
    unfold releasedIn at h2
    rw [hc] at h2
    simp at h2
    omega
  | @via u c hu hc hn hr ih =>
    rintro ⟨_, _, _, h2⟩
    exact ih (h2 u hu (const_not_excluded ((const_iff u).mp hc)) ((refers_iff u c).mp hr))

theorem followed_count {m : List Inst} (h : Spec.Regular m) {u : Inst} (hu : u ∈ m)
    (hc : Spec.Const u) {c : Id} (hcc : Spec.ConstId m c) : usesIn u c = releasedIn u c := by
  by_cases hr : Spec.Refers u c
  · obtain ⟨k, h1, h2⟩ := hr
    obtain ⟨hcls, _⟩ := h.followed u hu hc k c h2 h1 hcc
    have key : ∀ p ∈ u.operands, (isUseType p.1 && p.2 == c) = (p.1 == Kind.id && p.2 == c) := by
      rintro ⟨k', x⟩ hp
      cases hx : (x == c)
      · simp [hx]
      · have hx := eq_of_beq hx
        subst hx
        cases hk : isUseType k'
        · cases k' <;> first | rfl | cases hk
        · rw [(h.followed u hu hc k' x hp ((refKind_iff k').mpr hk) hcc).2]; rfl
    unfold usesIn releasedIn
    rw [if_pos hcls, List.filter_congr key]
    unfold Inst.operands
    rw [List.filter_append, List.filter_append]
    have e1 : (if u.type ≠ 0 then [(Kind.typeId, u.type)] else []).filter
        (fun p => p.1 == Kind.id && p.2 == c) = [] := by
      split
      · simp [List.filter_cons]
      · rfl
    have e2 : (if u.result ≠ 0 then [(Kind.resultId, u.result)] else []).filter
        (fun p => p.1 == Kind.id && p.2 == c) = [] := by
      split
      · simp [List.filter_cons]
      · rfl
    rw [e1, e2]; simp
  · have h0 : usesIn u c = 0 := by
      rw [refers_iff] at hr; omega
    have := released_le u c
    omega

theorem dead_of_not_needed {m : List Inst} (h1 : OneDef m) (h : Spec.Regular m) {c : Id}
    (hc : Spec.ConstId m c) (hn : ¬ Spec.Needed m c) : Dead m c := by
  have key : ∀ n c, (m.map (·.result)).length - (m.map (·.result)).idxOf c ≤ n →
      Spec.ConstId m c → ¬ Spec.Needed m c → Dead m c := by
    intro n
    induction n with
    | zero =>
      intro c hle hc _
      exfalso
      obtain ⟨u, hu, _, rfl⟩ := hc
      have := List.idxOf_lt_length_of_mem (List.mem_map.mpr ⟨u, hu, rfl⟩ :
        u.result ∈ m.map (·.result))
      omega
    | succ n ih =>
      intro c hle hc hn
      have hconst : ∀ u ∈ m, excluded u.cls = false → 0 < usesIn u c → Spec.Const u := by
        intro u hu he hp
        rcases (program_iff u).mpr he with hcu | hcu
        · exact hcu
        · exact absurd (Spec.Needed.direct hu hcu ((refers_iff u c).mpr hp)) hn
      refine Dead.intro c ((constId_iff m c).mp hc) ?_ ?_
      · intro u hu he
        by_cases hp : 0 < usesIn u c
        · exact followed_count h hu (hconst u hu he hp) hc
        · have := released_le u c; omega
      · intro u hu he hp
        have hcu := hconst u hu he hp
        apply ih
        · obtain ⟨m1, m2, hm, hm1, _, _⟩ := onlyResult h1 hu ((const_iff u).mp hcu)
          obtain ⟨v, hv, hvc⟩ := h.ordered m1 u m2 hm hcu c hc ((refers_iff u c).mpr hp)
          have e1 : (m.map (·.result)).idxOf c < m1.length := by
            rw [hm, List.map_append, List.idxOf_append,
              if_pos (List.mem_map.mpr ⟨v, hv, hvc⟩)]
            have := List.idxOf_lt_length_of_mem (List.mem_map.mpr ⟨v, hv, hvc⟩ :
              c ∈ m1.map (·.result))
            simpa using this
          have e2 : m1.length ≤ (m.map (·.result)).idxOf u.result := by
            rw [hm, List.map_append, List.idxOf_append, if_neg]
            · simp
            · intro hx
              obtain ⟨w, hw, hwe⟩ := List.mem_map.mp hx
              exact hm1 w hw hwe
          omega
        · exact ⟨u, hu, hcu, rfl⟩
        · exact fun hnu => hn (Spec.Needed.via hu hcu hnu ((refers_iff u c).mpr hp))
  exact key _ c (Nat.le_refl _) hc hn

/-! ## effect of the kills on one instruction -/

def foldOne (D : List Id) (u : Inst) : Option Inst :=
  D.foldl (fun (o : Option Inst) id => o.bind (killOne id)) (some u)

theorem foldOne_nil (u : Inst) : foldOne [] u = some u := rfl

theorem foldOne_cons (d : Id) (D : List Id) (u : Inst) :
    foldOne (d :: D) u = (killOne d u).bind (foldOne D) := by
  unfold foldOne
  rw [List.foldl_cons]
  cases hk : killOne d u with
  | some u' => simp [hk]
  | none =>
    simp only [Option.bind_some, hk, Option.bind_none]
    induction D with
    | nil => rfl
    | cons d D ih => exact ih

theorem foldOne_const {D : List Id} {u : Inst} (h : Spec.Const u) :
    foldOne D u = if u.result ∈ D then none else some u := by
  have hk : ∀ d, killOne d u = if u.result = d then none else some u := by
    intro d; unfold killOne; rcases h with h | h <;> simp only [h]
  induction D with
  | nil => rfl
  | cons d D ih =>
    rw [foldOne_cons, hk]
    by_cases hd : u.result = d
    · simp [hd]
    · rw [if_neg hd, Option.bind_some, ih]; simp [hd]

theorem foldOne_still {D : List Id} {u : Inst}
    (h : u.cls = .other ∨ u.cls = .debug ∨ u.cls = .memberAnnotation) :
    foldOne D u = some u := by
  have hk : ∀ d, killOne d u = some u := by
    intro d; unfold killOne; rcases h with h | h | h <;> simp only [h]
  induction D with
  | nil => rfl
  | cons d D ih => rw [foldOne_cons, hk, Option.bind_some, ih]

theorem foldOne_target {D : List Id} {u : Inst} (h : u.cls = .annotation ∨ u.cls = .name) :
    foldOne D u = if ∃ p, u.ins.head? = some p ∧ p.2 ∈ D then none else some u := by
  have hk : ∀ d, killOne d u = if (u.ins.head?.map (·.2)) = some d then none else some u := by
    intro d; unfold killOne; rcases h with h | h <;> simp only [h]
  induction D with
  | nil => simp [foldOne_nil]
  | cons d D ih =>
    rw [foldOne_cons, hk]
    cases hh : u.ins.head? with
    | none => simp [ih, hh]
    | some p =>
      by_cases hd : p.2 = d
      · simp [hd]
      · simp only [Option.map_some, Option.some.injEq, hd, if_false, Option.bind_some, ih, hh,
          exists_eq_left', List.mem_cons, false_or]

theorem killOne_group {d : Id} {u : Inst} (h : u.cls = .groupDecorate) {g : Kind × Nat}
    {ts : List (Kind × Nat)} (hi : u.ins = g :: ts) :
    (∀ u', killOne d u = some u' → u'.cls = .groupDecorate ∧
      ∃ ts', u'.ins = g :: ts' ∧ ∀ t, t ∈ ts' ↔ t ∈ ts ∧ t.2 ≠ d) := by
  intro u' hk
  unfold killOne at hk
  simp only [h, hi] at hk
  split at hk
  · split at hk
    · cases hk
    · cases hk
      refine ⟨rfl, _, rfl, ?_⟩
      intro t
      rw [dropTargets_mem _ _ _ _ (by omega) (by intro j t hj; omega)]
      simp
  · rename_i ha
    cases hk
    refine ⟨h, ts, hi, ?_⟩
    intro t
    constructor
    · intro ht
      refine ⟨ht, ?_⟩
      intro he
      apply ha
      rw [List.any_eq_true]
      exact ⟨t, ht, by simpa using he⟩
    · exact fun h => h.1

theorem foldOne_group_mem {D : List Id} {u u' : Inst} {g : Kind × Nat} {ts : List (Kind × Nat)}
    (h : u.cls = .groupDecorate) (hi : u.ins = g :: ts) (hf : foldOne D u = some u') :
    u'.cls = .groupDecorate ∧ ∃ ts', u'.ins = g :: ts' ∧ ∀ t, t ∈ ts' ↔ t ∈ ts ∧ t.2 ∉ D := by
  induction D generalizing u ts with
  | nil => rw [foldOne_nil] at hf; cases hf; exact ⟨h, ts, hi, by simp⟩
  | cons d D ih =>
    rw [foldOne_cons] at hf
    obtain ⟨u1, h1, h2⟩ := Option.bind_eq_some_iff.mp hf
    obtain ⟨h3, ts1, h4, h5⟩ := killOne_group h hi u1 h1
    obtain ⟨h6, ts', h7, h8⟩ := ih h3 h4 h2
    refine ⟨h6, ts', h7, ?_⟩
    intro t
    rw [h8, h5, List.mem_cons, not_or]
    constructor
    · rintro ⟨⟨a, b⟩, c⟩; exact ⟨a, b, c⟩
    · rintro ⟨a, b, c⟩; exact ⟨⟨a, b⟩, c⟩

theorem killOne_same {d : Id} {u u' : Inst} (h : killOne d u = some u') :
    u'.cls = u.cls ∧ u'.result = u.result ∧ u'.type = u.type ∧ (u.ins = [] → u'.ins = []) := by
  unfold killOne at h
  split at h
  · split at h <;> cases h <;> exact ⟨rfl, rfl, rfl, id⟩
  · split at h <;> cases h <;> exact ⟨rfl, rfl, rfl, id⟩
  · split at h <;> cases h <;> exact ⟨rfl, rfl, rfl, id⟩
  · split at h <;> cases h <;> exact ⟨rfl, rfl, rfl, id⟩
  · rename_i hc
    split at h
    · cases h; exact ⟨rfl, rfl, rfl, id⟩
    · rename_i g ts hg
      split at h
      · dsimp only at h
        split at h
        · cases h
        · cases h; exact ⟨rfl, rfl, rfl, by rw [hg]; intro hx; cases hx⟩
      · cases h; exact ⟨rfl, rfl, rfl, id⟩
  · rename_i hc
    split at h
    · cases h; exact ⟨rfl, rfl, rfl, id⟩
    · rename_i g ts hg
      split at h
      · dsimp only at h
        split at h
        · cases h
        · cases h; exact ⟨rfl, rfl, rfl, by rw [hg]; intro hx; cases hx⟩
      · cases h; exact ⟨rfl, rfl, rfl, id⟩
  all_goals first | (cases h; exact ⟨rfl, rfl, rfl, id⟩)

theorem foldOne_same {D : List Id} {u u' : Inst} (h : foldOne D u = some u') :
    u'.cls = u.cls ∧ u'.result = u.result ∧ u'.type = u.type ∧ (u.ins = [] → u'.ins = []) := by
  induction D generalizing u with
  | nil => rw [foldOne_nil] at h; cases h; exact ⟨rfl, rfl, rfl, id⟩
  | cons d D ih =>
    rw [foldOne_cons] at h
    obtain ⟨u1, h1, h2⟩ := Option.bind_eq_some_iff.mp h
    obtain ⟨a1, a2, a3, a4⟩ := killOne_same h1
    obtain ⟨b1, b2, b3, b4⟩ := ih h2
    exact ⟨b1.trans a1, b2.trans a2, b3.trans a3, fun h => b4 (a4 h)⟩

/-- The whole pass in terms of the set of dead constants. -/
theorem process_dead (pick : List Id → Nat) (m : List Inst) (hn : OneDef m) :
    ∃ D : List Id, process pick m = some (m.filterMap (foldOne D)) ∧ ∀ c, c ∈ D ↔ Dead m c := by
  obtain ⟨s, h1, h2, h3⟩ := loop_spec pick m hn (constants m).length (init m) (inv_init m hn)
    (by omega)
  refine ⟨s.dead, ?_, dead_iff h2 h3⟩
  unfold process
  rw [h1]
  dsimp only
  rw [kill_fold]
  rfl

open Classical in
theorem program_part (m : List Inst) (D : List Id) :
    (m.filterMap (foldOne D)).filter (fun u => decide (Spec.Program u)) =
      m.filter (fun u => decide (Spec.Program u ∧ (Spec.Const u → u.result ∉ D))) := by
  induction m with
  | nil => rfl
  | cons u m ih =>
    by_cases hp : Spec.Program u
    · rcases hp with hc | hc
      · rw [List.filterMap_cons, foldOne_const hc]
        by_cases hd : u.result ∈ D
        · rw [if_pos hd]
          dsimp only
          rw [ih, List.filter_cons_of_neg]
          simp [hc, hd]
        · rw [if_neg hd]
          dsimp only
          rw [List.filter_cons_of_pos (by simp [Spec.Program, hc]), ih,
            List.filter_cons_of_pos (by simp [Spec.Program, hc, hd])]
      · rw [List.filterMap_cons, foldOne_still (Or.inl hc)]
        dsimp only
        rw [List.filter_cons_of_pos (by simp [Spec.Program, hc]), ih,
          List.filter_cons_of_pos (by simp [Spec.Program, Spec.Const, hc])]
    · rw [List.filterMap_cons, List.filter_cons_of_neg (by simp [hp])]
      cases hf : foldOne D u with
      | none => exact ih
      | some u' =>
        dsimp only
        have : ¬ Spec.Program u' := by
          have := (foldOne_same hf).1
          unfold Spec.Program Spec.Const at hp ⊢
          rw [this]; exact hp
        rw [List.filter_cons_of_neg (by simp [this]), ih]

/-- No remaining instruction refers to a removed constant, except annotations in operands
that are not their target, and debug text. -/
theorem no_dangling {m : List Inst} {D : List Id} (hD : ∀ c, c ∈ D ↔ Dead m c) {u' : Inst}
    (hu : u' ∈ m.filterMap (foldOne D)) :
    (Spec.Program u' → ∀ c, Spec.Refers u' c → c ∉ D) ∧
    ∀ (k : Nat) kd c, u'.ins[k]? = some (kd, c) → c ∈ D → ¬ Spec.Target u' k := by
  obtain ⟨u, hum, hf⟩ := List.mem_filterMap.mp hu
  constructor
  · intro hp c hr hc
    have hcls := (foldOne_same hf).1
    have hp' : Spec.Program u := by
      unfold Spec.Program Spec.Const at hp ⊢; rw [hcls] at hp; exact hp
    obtain ⟨_, _, h1, h2⟩ := (hD c).mp hc
    have hex := (program_iff u).mp hp'
    have huu : u' = u := by
      rcases hp' with h3 | h3
      · rw [foldOne_const h3] at hf
        split at hf
        · cases hf
        · cases hf; rfl
      · rw [foldOne_still (Or.inl h3)] at hf; cases hf; rfl
    subst huu
    have hpos := (refers_iff u' c).mp hr
    have hd := h2 u' hum hex hpos
    have hcomp : u'.cls = .composite := by
      have := h1 u' hum hex
      unfold releasedIn at this
      split at this
      · assumption
      · omega
    rw [foldOne_const (Or.inl hcomp), if_pos ((hD _).mpr hd)] at hf
    cases hf
  · intro k kd c hk hc ht
    have hcls := (foldOne_same hf).1
    rcases ht with ⟨h1, rfl⟩ | ⟨h1, h2⟩
    · rw [hcls] at h1
      rw [foldOne_target h1] at hf
      split at hf
      · cases hf
      · rename_i hne
        cases hf
        apply hne
        refine ⟨(kd, c), ?_, hc⟩
        rw [← hk]; exact List.head?_eq_getElem?
    · rw [hcls] at h1
      cases hi : u.ins with
      | nil =>
        rw [(foldOne_same hf).2.2.2 hi] at hk; simp at hk
      | cons g ts =>
        obtain ⟨_, ts', h3, h4⟩ := foldOne_group_mem h1 hi hf
        rw [h3] at hk
        cases k with
        | zero => omega
        | succ k =>
          rw [List.getElem?_cons_succ] at hk
          exact ((h4 (kd, c)).mp (List.mem_iff_getElem?.mpr ⟨k, hk⟩)).2 hc

open Classical in
/-- **C46, safety** (any module that defines ids once). The pass does not fail. Among the
program instructions it removes only constants that no program instruction refers to,
directly or through constants; the others keep their order and contents. Nothing else in
the program refers to a removed constant, and nothing names or decorates one. -/
theorem deadConstants_safe (pick : List Id → Nat) (m : List Inst) (hn : Spec.OneDef m) :
    ∃ (m' : List Inst) (D : List Id), process pick m = some m' ∧
      (∀ c ∈ D, Spec.ConstId m c ∧ ¬ Spec.Needed m c) ∧
      m'.filter (fun u => decide (Spec.Program u)) =
        m.filter (fun u => decide (Spec.Program u ∧ (Spec.Const u → u.result ∉ D))) ∧
      ∀ u ∈ m', (Spec.Program u → ∀ c, Spec.Refers u c → c ∉ D) ∧
        ∀ (k : Nat) kd c, u.ins[k]? = some (kd, c) → c ∈ D → ¬ Spec.Target u k := by
  obtain ⟨D, h1, h2⟩ := process_dead pick m (oneDef_of hn)
  refine ⟨_, D, h1, ?_, program_part m D, fun u hu => no_dangling h2 hu⟩
  intro c hc
  have hd := (h2 c).mp hc
  refine ⟨?_, fun hne => needed_not_dead hne hd⟩
  obtain ⟨_, h3, _, _⟩ := hd
  exact (constId_iff m c).mpr h3

open Classical in
/-- **C46, exactness.** When constants refer to each other in declaration order and through
the operands the pass follows, what remains of the program is exactly the needed constants
and the other instructions, whatever the order in which the work list is visited. Missing
from the full statement: references the pass does not follow (`decorateId_dangles`,
`replicate_not_idempotent`), for which the claim is false of the code. -/
theorem deadConstants_exact_partial (pick : List Id → Nat) (m : List Inst) (hn : Spec.OneDef m)
    (hr : Spec.Regular m) :
    ∃ m', process pick m = some m' ∧
      m'.filter (fun u => decide (Spec.Program u)) =
        m.filter (fun u => decide (Spec.Program u ∧ (Spec.Const u → Spec.Needed m u.result))) := by
  have hn' := oneDef_of hn
  obtain ⟨D, h1, h2⟩ := process_dead pick m hn'
  refine ⟨_, h1, ?_⟩
  rw [program_part]
  apply List.filter_congr
  intro u hu
  congr 1
  rw [eq_iff_iff]
  constructor
  · rintro ⟨hp, hc⟩
    refine ⟨hp, fun hcu => ?_⟩
    by_cases hne : Spec.Needed m u.result
    · exact hne
    · exact absurd ((h2 _).mpr (dead_of_not_needed hn' hr ⟨u, hu, hcu, rfl⟩ hne)) (hc hcu)
  · rintro ⟨hp, hc⟩
    exact ⟨hp, fun hcu hd => needed_not_dead (hc hcu) ((h2 _).mp hd)⟩

theorem foldOne_results (D : List Id) (m : List Inst) :
    ((m.filterMap (foldOne D)).map (·.result)).Sublist (m.map (·.result)) := by
  induction m with
  | nil => exact List.Sublist.slnil
  | cons u m ih =>
    rw [List.filterMap_cons]
    cases hf : foldOne D u with
    | none => exact ih.cons _
    | some u' =>
      dsimp only
      rw [List.map_cons, List.map_cons, (foldOne_same hf).2.1]
      exact ih.cons_cons _

theorem filterMap_id {m : List Inst} : m.filterMap (foldOne []) = m := by
  induction m with
  | nil => rfl
  | cons u m ih => rw [List.filterMap_cons, foldOne_nil]; dsimp only; rw [ih]

/-- **C46, idempotence.** A second run changes nothing. -/
theorem deadConstants_idempotent_partial (pick pick' : List Id → Nat) (m : List Inst)
    (hn : Spec.OneDef m) (hr : Spec.Regular m) :
    ∃ m', process pick m = some m' ∧ process pick' m' = some m' := by
  have hn' := oneDef_of hn
  obtain ⟨D, h1, h2⟩ := process_dead pick m hn'
  refine ⟨_, h1, ?_⟩
  have hkeep : ∀ u ∈ m, Spec.Program u → (Spec.Const u → u.result ∉ D) →
      u ∈ m.filterMap (foldOne D) := by
    intro u hu hp hc
    refine List.mem_filterMap.mpr ⟨u, hu, ?_⟩
    rcases hp with h3 | h3
    · rw [foldOne_const h3, if_neg (hc h3)]
    · exact foldOne_still (Or.inl h3)
  have hback : ∀ u ∈ m.filterMap (foldOne D), Spec.Const u → u ∈ m ∧ u.result ∉ D := by
    intro u' hu' hc
    obtain ⟨u, hu, hf⟩ := List.mem_filterMap.mp hu'
    have hcu : Spec.Const u := by
      have := (foldOne_same hf).1
      unfold Spec.Const at hc ⊢; rw [this] at hc; exact hc
    rw [foldOne_const hcu] at hf
    split at hf
    · cases hf
    · cases hf; exact ⟨hu, by assumption⟩
  have htrans : ∀ c, Spec.Needed m c → Spec.Needed (m.filterMap (foldOne D)) c := by
    intro c hc
    induction hc with
    | direct hu hc hr =>
      exact Spec.Needed.direct (hkeep _ hu (Or.inr hc) (by
        unfold Spec.Const; rw [hc]; rintro (h | h) <;> cases h)) hc hr
    | via hu hc hne hr ih =>
      exact Spec.Needed.via (hkeep _ hu (Or.inl hc) fun _ hd =>
        needed_not_dead hne ((h2 _).mp hd)) hc ih hr
  have hone : OneDef (m.filterMap (foldOne D)) := by
    constructor
    · intro u hu hc
      exact hn'.1 u (hback u hu ((const_iff u).mpr hc)).1 hc
    · have := List.Pairwise.sublist (R := fun a b => a = b → a = 0) (foldOne_results D m)
        (List.pairwise_map.mpr hn'.2)
      exact List.pairwise_map.mp this
  obtain ⟨D', h3, h4⟩ := process_dead pick' _ hone
  rw [h3]
  have : D' = [] := by
    cases hD' : D' with
    | nil => rfl
    | cons d ds =>
      exfalso
      have hd := (h4 d).mp (by rw [hD']; exact List.mem_cons_self)
      have hd' := hd
      obtain ⟨_, hc, _, _⟩ := hd'
      obtain ⟨u, hu, hcu, rfl⟩ := (constId_iff _ _).mpr hc
      obtain ⟨hum, hnd⟩ := hback u hu hcu
      have hne : Spec.Needed m u.result := by
        by_cases hne : Spec.Needed m u.result
        · exact hne
        · exact absurd ((h2 _).mpr (dead_of_not_needed hn' hr ⟨u, hum, hcu, rfl⟩ hne)) hnd
      exact needed_not_dead (htrans _ hne) hd
  rw [this, filterMap_id]

/-! ## where the code falls short -/

/-- A constant that only `OpDecorateId` refers to is removed, and the decoration, which
applies to something else, keeps referring to it: `OpDecorateId %1 UniformId %2`. -/
theorem decorateId_dangles :
    process (fun _ => 0) [⟨.annotation, 0, 0, [(.id, 1), (.lit, 27), (.scopeId, 2)]⟩,
      ⟨.other, 0, 1, []⟩, ⟨.constant, 3, 2, [(.lit, 3)]⟩] =
    some [⟨.annotation, 0, 0, [(.id, 1), (.lit, 27), (.scopeId, 2)]⟩, ⟨.other, 0, 1, []⟩] := by
  decide

/-- `OpConstantCompositeReplicateEXT` refers to a constant but is not followed: one run
leaves its component behind and a second run removes it. -/
theorem replicate_not_idempotent :
    process (fun _ => 0) [⟨.constant, 1, 2, [(.lit, 7)]⟩, ⟨.constant, 3, 4, [(.id, 2)]⟩] =
      some [⟨.constant, 1, 2, [(.lit, 7)]⟩] ∧
    process (fun _ => 0) [⟨.constant, 1, 2, [(.lit, 7)]⟩] = some [] := by
  decide

/-! ## the hypotheses are satisfiable -/

/-- `%2` is a name target, `%3` and `%4` constants, `%5` a composite of them, `%6` one of
`%3`; a later instruction uses `%6`. -/
def exModule : List Inst :=
  [⟨.name, 0, 0, [(.id, 5), (.lit, 0)]⟩, ⟨.groupDecorate, 0, 0, [(.id, 9), (.id, 5), (.id, 6)]⟩,
   ⟨.other, 0, 1, [(.lit, 32)]⟩, ⟨.constant, 1, 3, [(.lit, 7)]⟩, ⟨.constant, 1, 4, [(.lit, 8)]⟩,
   ⟨.composite, 1, 5, [(.id, 3), (.id, 4)]⟩, ⟨.composite, 1, 6, [(.id, 3), (.id, 3)]⟩,
   ⟨.other, 0, 0, [(.id, 6)]⟩]

/-- `%5` and then `%4` go, with the name of `%5` and its place in the group. -/
example : process (fun _ => 0) exModule =
    some [⟨.groupDecorate, 0, 0, [(.id, 9), (.id, 6)]⟩,
      ⟨.other, 0, 1, [(.lit, 32)]⟩, ⟨.constant, 1, 3, [(.lit, 7)]⟩,
      ⟨.composite, 1, 6, [(.id, 3), (.id, 3)]⟩, ⟨.other, 0, 0, [(.id, 6)]⟩] := by decide

example : Spec.OneDef exModule := by
  constructor
  · intro u hu hc
    simp only [exModule, List.mem_cons, List.not_mem_nil, or_false] at hu
    rcases hu with rfl | rfl | rfl | rfl | rfl | rfl | rfl | rfl <;>
      simp [Spec.Const] at hc ⊢
  · intro a b x y ha hb he h0
    have hla := (List.getElem?_eq_some_iff.mp ha).1
    have hlb := (List.getElem?_eq_some_iff.mp hb).1
    have key : ∀ a, a < 8 → ∀ b, b < 8 → (exModule[a]?.map (·.result)) = (exModule[b]?.map (·.result)) →
        (exModule[a]?.map (·.result)) ≠ some 0 → a = b := by decide
    exact key a hla b hlb (by rw [ha, hb]; simp [he]) (by rw [ha]; simpa using h0)

theorem exConstId (c : Id) (hc : Spec.ConstId exModule c) : c = 3 ∨ c = 4 ∨ c = 5 ∨ c = 6 := by
  rw [constId_iff] at hc
  simpa [constants, exModule, isConst] using hc

example : Spec.Regular exModule := by
  constructor
  · intro m1 u m2 hm hcu c hc ⟨k, hk, hr⟩
    have hidx : exModule[m1.length]? = some u := by rw [hm]; simp
    have hlt := (List.getElem?_eq_some_iff.mp hidx).1
    have hm1 : m1 = exModule.take m1.length := by rw [hm]; simp
    have hcs := exConstId c hc
    have key : ∀ n, n < 8 → ∀ u, exModule[n]? = some u → isConst u.cls = true →
        ∀ p ∈ u.operands, isUseType p.1 = true → p.2 = 3 ∨ p.2 = 4 ∨ p.2 = 5 ∨ p.2 = 6 →
          ∃ v ∈ exModule.take n, v.result = p.2 := by
      intro n hn u hu
      match n, hn with
      | 0, _ => cases hu; decide
      | 1, _ => cases hu; decide
      | 2, _ => cases hu; decide
      | 3, _ => cases hu; decide
      | 4, _ => cases hu; decide
      | 5, _ => cases hu; decide
      | 6, _ => cases hu; decide
      | 7, _ => cases hu; decide
    rw [hm1]
    exact key m1.length hlt u hidx ((const_iff u).mp hcu) (k, c) hr ((refKind_iff k).mp hk) hcs
  · intro u hu hcu k c hr hk hc
    have hcs := exConstId c hc
    have key : ∀ u ∈ exModule, isConst u.cls = true → ∀ p ∈ u.operands, isUseType p.1 = true →
        p.2 = 3 ∨ p.2 = 4 ∨ p.2 = 5 ∨ p.2 = 6 → u.cls = .composite ∧ p.1 = .id := by decide
    exact key u hu ((const_iff u).mp hcu) (k, c) hr ((refKind_iff k).mp hk) hcs

end Verif.DeadConst
