import Verif.Bindings.Loop
/-!
# C78: conflicts of bindings are resolved
-/
set_option linter.unusedSimpArgs false
set_option linter.unusedVariables false
namespace Verif.Bindings
open Spec

/-- Which variables are samplers. -/
theorem sampler_types (v : Var) : Sampler v ↔ SamplerTy v.ty := by
  unfold Sampler
  generalize v.ty = t
  induction t with
  | pointer t ih => exact ⟨fun h => .pointer (ih.1 h), fun h => by cases h with | pointer h => exact ih.2 h⟩
  | array t ih => exact ⟨fun h => .array (ih.1 h), fun h => by cases h with | array h => exact ih.2 h⟩
  | runtimeArray t ih =>
    exact ⟨fun h => .runtimeArray (ih.1 h), fun h => by cases h with | runtimeArray h => exact ih.2 h⟩
  | base o =>
    constructor
    · intro h
      have h : o = 26 := h
      subst h
      exact .sampler
    · intro h; cases h with | sampler => rfl

/-- `scan` from some decorations on. -/
def scanFrom (acc : Option Nat × Option Nat) (ds : List Deco) : Option Nat × Option Nat :=
  ds.foldl (fun acc d => match d with
    | .set n => (some n, acc.2)
    | .binding n => (acc.1, some n)
    | .other => acc) acc

theorem scanFrom_some (ds : List Deco) (acc : Option Nat × Option Nat) :
    (∀ n, (scanFrom acc ds).1 = some n → acc.1 = some n ∨ .set n ∈ ds) ∧
    (∀ n, (scanFrom acc ds).2 = some n → acc.2 = some n ∨ .binding n ∈ ds) ∧
    ((scanFrom acc ds).1 = none → ∀ n, .set n ∉ ds) ∧
    ((scanFrom acc ds).2 = none → ∀ n, .binding n ∉ ds) ∧
    ((scanFrom acc ds).1 = none → acc.1 = none) ∧ ((scanFrom acc ds).2 = none → acc.2 = none) := by
  induction ds generalizing acc with
  | nil => simp [scanFrom]
  | cons d ds ih =>
    cases d with
    | set k =>
      obtain ⟨h1, h2, h3, h4, h5, h6⟩ := ih (some k, acc.2)
      have e : scanFrom acc (.set k :: ds) = scanFrom (some k, acc.2) ds := rfl
      rw [e]
      refine ⟨?_, ?_, ?_, ?_, ?_, h6⟩
      · intro n hn
        rcases h1 n hn with h | h
        · simp at h; subst h; exact .inr (by simp)
        · exact .inr (by simp [h])
      · intro n hn
        rcases h2 n hn with h | h
        · exact .inl h
        · exact .inr (by simp [h])
      · intro hn; exact absurd (h5 hn) (by simp)
      · intro hn n; have := h4 hn n; simp [this]
      · intro hn; exact absurd (h5 hn) (by simp)
    | binding k =>
      obtain ⟨h1, h2, h3, h4, h5, h6⟩ := ih (acc.1, some k)
      have e : scanFrom acc (.binding k :: ds) = scanFrom (acc.1, some k) ds := rfl
      rw [e]
      refine ⟨?_, ?_, ?_, ?_, h5, ?_⟩
      · intro n hn
        rcases h1 n hn with h | h
        · exact .inl h
        · exact .inr (by simp [h])
      · intro n hn
        rcases h2 n hn with h | h
        · simp at h; subst h; exact .inr (by simp)
        · exact .inr (by simp [h])
      · intro hn n; have := h3 hn n; simp [this]
      · intro hn; exact absurd (h6 hn) (by simp)
      · intro hn; exact absurd (h6 hn) (by simp)
    | other =>
      have e : scanFrom acc (.other :: ds) = scanFrom acc ds := rfl
      rw [e]
      simpa using ih acc

/-- The variables the pass looks at are the resources of the module. -/
theorem resources (m : Mod) (one : Single m) (v : Var) : v ∈ m.vars ↔ Resource m v := by
  unfold Mod.vars getVars Resource
  simp only [List.mem_filterMap]
  constructor
  · rintro ⟨d, hd, h⟩
    obtain ⟨h1, h2, -⟩ := scanFrom_some d.decos (none, none)
    split at h
    · rename_i s b hsc
      have hsc : scanFrom (none, none) d.decos = (some s, some b) := hsc
      simp at h
      subst h
      have k1 := h1 s (by rw [hsc])
      have k2 := h2 b (by rw [hsc])
      simp at k1 k2
      exact ⟨d, hd, rfl, rfl, k1, k2⟩
    · simp at h
  · rintro ⟨d, hd, e1, e2, hs, hb⟩
    refine ⟨d, hd, ?_⟩
    obtain ⟨h1, h2, h3, h4, -⟩ := scanFrom_some d.decos (none, none)
    cases k1 : (scanFrom (none, none) d.decos).1 with
    | none => exact absurd hs (h3 k1 _)
    | some s =>
      cases k2 : (scanFrom (none, none) d.decos).2 with
      | none => exact absurd hb (h4 k2 _)
      | some b =>
        have hsc : scan d.decos = (some s, some b) := by
          show scanFrom (none, none) d.decos = _
          rw [← k1, ← k2]
        rw [hsc]
        have m1 := h1 s k1
        have m2 := h2 b k2
        simp at m1 m2
        have q1 := (one d hd s v.set).1 m1 hs
        have q2 := (one d hd b v.first).2 m2 hb
        subst q1 q2
        rw [e1, e2]

/-- The lists the pass works on, and what they are. -/
theorem setup {m : Mod} (ok : Ok m) : ∃ ls : List (List Var),
    Lists m.vars ls ∧
    (∀ c, Sol m.vars ls c ↔ Resolved m c) ∧
    (∀ b md, Ends m b md ↔ ∃ n, loop ls n Var.first false = some (b, md)) := by
  have hA : m.vars.Pairwise fun x y => x.id ≠ y.id := getVars_ids ok.ids
  obtain ⟨rank, hr⟩ := ok.calls
  have hb : ∃ n, ∀ e ∈ m.entries, rank e < n := by
    generalize m.entries = es
    induction es with
    | nil => exact ⟨0, by simp⟩
    | cons e es ih =>
      obtain ⟨n, hn⟩ := ih
      refine ⟨n + rank e + 1, ?_⟩
      intro x hx
      rcases List.mem_cons.1 hx with rfl | hx
      · omega
      · have := hn x hx; omega
  obtain ⟨n0, hn0⟩ := hb
  obtain ⟨s, h1, h2, -, h4⟩ := visitAll_ok hr n0 m.entries hn0 ([], []) ⟨.nil, by simp⟩ (by simp)
  have ho : visitOrder m n0 = some s.2 := by unfold visitOrder; rw [h1]; rfl
  have hfull := fun e he => (collect_full hA h2.post).1 e (h4 e he)
  have hls : ∀ l, l ∈ epBindings m (collect m s.2) ↔
      ∃ e ∈ m.entries, ∃ k ∈ m.keys e, collect m s.2 e k = l := by
    intro l
    simp only [epBindings, List.mem_flatMap, List.mem_map]
  refine ⟨epBindings m (collect m s.2), ⟨?_, ?_⟩, ?_, ?_⟩
  · intro l hl v hv
    obtain ⟨e, he, k, hk, rfl⟩ := (hls l).1 hl
    exact (((hfull e he k).mem v).1 hv).2.1
  · intro l hl
    obtain ⟨e, he, k, hk, rfl⟩ := (hls l).1 hl
    exact (hfull e he k).sorted
  · intro c
    constructor
    · intro hc
      refine ⟨hc.up, hc.fits, ?_⟩
      intro e he x y hx hy hs hxy
      have hl : collect m s.2 e x.set ∈ epBindings m (collect m s.2) :=
        (hls _).2 ⟨e, he, x.set, ok.keys e he x hx, rfl⟩
      have hp := (hfull e he x.set).sorted.and (hc.inc _ hl).pairwise
      have mx := ((hfull e he x.set).mem x).2 ⟨rfl, hx⟩
      have my := ((hfull e he x.set).mem y).2 ⟨hs.symm, hy⟩
      revert mx my hp
      generalize collect m s.2 e x.set = l
      intro hp mx my
      induction l with
      | nil => simp at mx
      | cons a l ih =>
        obtain ⟨p1, p2⟩ := List.pairwise_cons.1 hp
        rcases List.mem_cons.1 mx with ex | mx <;> rcases List.mem_cons.1 my with ey | my
        · rw [ex, ey] at hxy; exact absurd hxy (Before.irrefl a)
        · rw [ex]; exact (p1 y my).2
        · have := (p1 x mx).1
          rw [← ey] at this
          exact absurd (this.trans hxy) (Before.irrefl y)
        · exact ih p2 mx my
    · intro hc
      refine ⟨hc.up, hc.fits, ?_⟩
      intro l hl
      obtain ⟨e, he, k, hk, rfl⟩ := (hls l).1 hl
      refine inc_of ?_
      refine List.Pairwise.imp_of_mem ?_ (hfull e he k).sorted
      intro x y hx hy hxy
      have hx := ((hfull e he k).mem x).1 hx
      have hy := ((hfull e he k).mem y).1 hy
      exact hc.order e he x y hx.2 hy.2 (by rw [hx.1, hy.1]) hxy
  · intro b md
    constructor
    · rintro ⟨n, hn⟩
      unfold process at hn
      have h := visitOrder_mono (Nat.le_max_right n n0) ho
      cases hv : visitOrder m n with
      | none => rw [hv] at hn; simp at hn
      | some o =>
        rw [hv] at hn
        have h' := visitOrder_mono (Nat.le_max_left n n0) hv
        rw [h] at h'
        cases h'
        exact ⟨n, hn⟩
    · rintro ⟨n, hn⟩
      refine ⟨max n n0, ?_⟩
      unfold process
      rw [visitOrder_mono (Nat.le_max_right n n0) ho]
      exact loop_mono (Nat.le_max_left n n0) hn

/-- The numbers the pass leaves are free of conflicts, keep the order, and are the lowest such
numbers, whatever the orders in which maps and sets are walked through. -/
theorem lowest (m : Mod) (ok : Ok m) {b : Var → Nat} {md : Bool} (h : Ends m b md) :
    Resolved m b ∧ ∀ c, Resolved m c → ∀ v, b v ≤ c v := by
  obtain ⟨ls, hl, hs, he⟩ := setup ok
  obtain ⟨n, hn⟩ := (he b md).1 h
  refine ⟨(hs b).1 (loop_sol hl ok.words n hn), fun c hc v => ?_⟩
  exact ((loop_result hl ((hs c).2 hc) n _ _ hc.up hn).1 v).2

/-- No two resources of one entry point share set and binding. -/
theorem no_conflict (m : Mod) (ok : Ok m) {b : Var → Nat} {md : Bool} (h : Ends m b md)
    {e : Nat} (he : e ∈ m.entries) {x y : Var} (hx : UsedBy m e x) (hy : UsedBy m e y)
    (hne : x ≠ y) : ¬ (x.set = y.set ∧ b x = b y) := by
  rintro ⟨hs, hb⟩
  have r := (lowest m ok h).1
  have hid : x.id ≠ y.id := fun hid =>
    hne (distinct_of (getVars_ids ok.ids) x hx.1 y hy.1 hid)
  rcases Before.total hid with k | k
  · have := r.order e he x y hx hy hs k; omega
  · have := r.order e he y x hy hx hs.symm k; omega

/-- An image and a sampler with the same binding: the sampler is moved, behind the image. -/
theorem sampler_moves (m : Mod) (ok : Ok m) {b : Var → Nat} {md : Bool} (h : Ends m b md)
    {e : Nat} (he : e ∈ m.entries) {x y : Var} (hx : UsedBy m e x) (hy : UsedBy m e y)
    (hs : x.set = y.set) (hb : x.first = y.first) (hx' : ¬ Sampler x) (hy' : Sampler y) :
    b x < b y :=
  (lowest m ok h).1.order e he x y hx hy hs (.inr ⟨hb, .inl ⟨hx', hy'⟩⟩)

/-- The pass ends exactly when there are such numbers. -/
theorem ends_iff (m : Mod) (ok : Ok m) : (∃ b md, Ends m b md) ↔ ∃ c, Resolved m c := by
  obtain ⟨ls, hl, hs, he⟩ := setup ok
  constructor
  · rintro ⟨b, md, h⟩
    exact ⟨b, (lowest m ok h).1⟩
  · rintro ⟨c, hc⟩
    have hc' := (hs c).2 hc
    obtain ⟨r, hr⟩ := loop_ends hl hc' _ Var.first false hc.up (Nat.lt_succ_self _)
    exact ⟨r.1, r.2, (he r.1 r.2).2 ⟨_, hr⟩⟩

theorem countP_lt {p q : Var → Bool} {l : List Var} (h : ∀ v ∈ l, p v = true → q v = true)
    {x : Var} (hx : x ∈ l) (hp : p x = false) (hq : q x = true) : l.countP p < l.countP q := by
  induction l with
  | nil => simp at hx
  | cons a l ih =>
    have hle : l.countP p ≤ l.countP q := List.countP_mono_left fun v hv => h v (by simp [hv])
    rw [List.countP_cons, List.countP_cons]
    rcases List.mem_cons.1 hx with rfl | hx
    · simp [hp, hq]; omega
    · have := ih (fun v hv => h v (by simp [hv])) hx
      have ha := h a (by simp)
      cases hpa : p a
      · simp; omega
      · rw [ha hpa]; simp; omega

/-- It ends when the numbers leave room for as many as there are resources. -/
theorem ends_with_room (m : Mod) (ok : Ok m)
    (room : ∀ v ∈ m.vars, v.first + m.vars.length ≤ 2 ^ 32) : ∃ b md, Ends m b md := by
  refine (ends_iff m ok).2 ⟨fun v => v.first + m.vars.countP fun w => less Var.first w v,
    fun v => Nat.le_add_right _ _, ?_, ?_⟩
  · intro v hv
    have h1 := room v hv
    have h2 : m.vars.countP (fun w => less Var.first w v) < m.vars.countP fun _ => true :=
      countP_lt (fun _ _ _ => rfl) hv (by
        cases h : less Var.first v v
        · rfl
        · exact absurd ((less_iff v v).1 h) (Before.irrefl v)) rfl
    have h3 : m.vars.countP (fun _ => true) = m.vars.length := by simp
    show _ + _ < _
    omega
  · intro e he x y hx hy hs hxy
    have h1 : x.first ≤ y.first := by
      rcases hxy with h | h <;> omega
    have h2 : m.vars.countP (fun w => less Var.first w x) <
        m.vars.countP fun w => less Var.first w y :=
      countP_lt (fun v _ hv => (less_iff v y).2 (((less_iff v x).1 hv).trans hxy)) hx.1 (by
        cases h : less Var.first x x
        · rfl
        · exact absurd ((less_iff x x).1 h) (Before.irrefl x)) ((less_iff x y).2 hxy)
    show _ + _ < _ + _
    omega

/-- A change is reported exactly when a number was changed. -/
theorem report_exact (m : Mod) (ok : Ok m) {b : Var → Nat} {md : Bool} (h : Ends m b md) :
    md = true ↔ ∃ v, b v ≠ v.first := by
  obtain ⟨ls, hl, hs, he⟩ := setup ok
  obtain ⟨n, hn⟩ := (he b md).1 h
  have := (loop_result hl ((hs b).2 (lowest m ok h).1) n _ _ (lowest m ok h).1.up hn).2
  rw [this]
  constructor
  · rintro (h | h)
    · simp at h
    · apply Classical.byContradiction
      intro hn
      apply h
      funext v
      apply Classical.byContradiction
      intro hv
      exact hn ⟨v, hv⟩
  · rintro ⟨v, hv⟩
    exact .inr fun he => hv (by rw [he])

/-- Without conflicts nothing is changed. -/
theorem nothing_to_do (m : Mod) (ok : Ok m)
    (free : ∀ e ∈ m.entries, ∀ x y, UsedBy m e x → UsedBy m e y → x.set = y.set →
      x.first = y.first → x = y) : Ends m Var.first false := by
  have r : Resolved m Var.first := by
    refine ⟨fun v => Nat.le_refl _, ok.words, ?_⟩
    intro e he x y hx hy hs hxy
    rcases hxy with h | ⟨h1, h2⟩
    · exact h
    · have := free e he x y hx hy hs h1
      subst this
      rcases h2 with ⟨h, h'⟩ | ⟨-, h⟩
      · exact absurd h' h
      · omega
  obtain ⟨b, md, h⟩ := (ends_iff m ok).2 ⟨_, r⟩
  obtain ⟨h1, h2⟩ := lowest m ok h
  have e : b = Var.first := by
    funext v
    exact Nat.le_antisymm (h2 _ r v) (h1.up v)
  subst e
  have : md = false := by
    cases md
    · rfl
    · obtain ⟨v, hv⟩ := (report_exact m ok h).1 rfl
      exact absurd rfl hv
  rw [← this]
  exact h

/-- A resource none of whose entry points has another one at its binding or below in its set
keeps its number. -/
theorem untouched (m : Mod) (ok : Ok m) {b : Var → Nat} {md : Bool} (h : Ends m b md) {v : Var}
    (alone : ∀ e ∈ m.entries, UsedBy m e v → ∀ x, UsedBy m e x → x.set = v.set → ¬ Before x v) :
    b v = v.first := by
  obtain ⟨h1, h2⟩ := lowest m ok h
  have r : Resolved m (fun w => if w = v then v.first else b w) := by
    refine ⟨?_, ?_, ?_⟩
    · intro w
      by_cases hw : w = v
      · simp [hw]
      · simp only [hw, if_false]; exact h1.up w
    · intro w hw
      by_cases hwv : w = v
      · subst hwv; simp only [if_true]; exact ok.words w hw
      · simp only [hwv, if_false]; exact h1.fits w hw
    · intro e he x y hx hy hs hxy
      have hlt := h1.order e he x y hx hy hs hxy
      by_cases hy' : y = v
      · subst hy'
        exact absurd hxy (alone e he hy x hx hs)
      · simp only [hy', if_false]
        by_cases hx' : x = v
        · simp only [hx', if_true]
          have := h1.up v
          rw [hx'] at hlt
          omega
        · simp only [hx', if_false]; exact hlt
  have := h2 _ r v
  simp only [if_true] at this
  exact Nat.le_antisymm this (h1.up v)

/-! ### A module with conflicts -/

def tex (n : Nat) (b : Nat) : Decl := ⟨n, .pointer (.base 25), [.set 0, .binding b]⟩
def smp (n : Nat) (b : Nat) : Decl := ⟨n, .pointer (.array (.base 26)), [.other, .binding b, .set 0]⟩

/-- Entry 1 calls 3, entry 2 does not; a texture and a sampler at 0 and two at 1. -/
def shared : Mod where
  decls := [smp 10 0, tex 11 0, tex 12 1, smp 13 1]
  users := fun v => match v with
    | 10 => [none, some 3]
    | 11 => [some 1, some 1]
    | 12 => [some 1, some 2]
    | 13 => [some 2, some 3]
    | _ => []
  calls := fun f => if f = 1 then [3] else []
  entries := [1, 2]
  keys := fun _ => [0]

theorem shared_words : ∀ v ∈ shared.vars, v.first < 2 ^ 32 ∧ v.set = 0 := by decide

example : Single shared := by
  intro d hd n k
  simp [shared] at hd
  rcases hd with rfl | rfl | rfl | rfl <;> simp [tex, smp] <;> grind

theorem shared_ok : Ok shared where
  ids := by simp [shared, tex, smp]
  calls := by
    refine ⟨fun f => if f = 1 then 1 else 0, ?_⟩
    intro f g hg
    by_cases h : f = 1
    · simp [shared, h] at hg; simp [h, hg]
    · simp [shared, h] at hg
  words := fun v hv => (shared_words v hv).1
  keys := by
    intro e he v hv
    rw [(shared_words v hv.1).2]
    simp [shared]

example : (process shared 10).map (fun r => (shared.vars.map fun v => (v.id, r.1 v), r.2)) =
    some ([(10, 1), (11, 0), (12, 2), (13, 3)], true) := by decide

example : ∃ b md, Ends shared b md :=
  ends_with_room shared shared_ok (by decide)

example : UsedBy shared 1 ⟨10, 0, .pointer (.array (.base 26)), 0⟩ :=
  ⟨by decide, 3, .call (by decide) .refl, by decide⟩

/-! ### Findings -/

/-- Two resources at the highest binding number. -/
def top : Mod where
  decls := [tex 10 (2 ^ 32 - 1), smp 11 (2 ^ 32 - 1)]
  users := fun _ => [some 1]
  calls := fun _ => []
  entries := [1]
  keys := fun _ => [0]

theorem top_words : ∀ v ∈ top.vars, v.first < 2 ^ 32 ∧ v.set = 0 := by decide

theorem top_ok : Ok top where
  ids := by simp [top, tex, smp]
  calls := ⟨fun _ => 0, by simp [top]⟩
  words := fun v hv => (top_words v hv).1
  keys := by
    intro e he v hv
    rw [(top_words v hv.1).2]
    simp [top]

/-- The pass does not end: the number wraps to 0 in each round. -/
theorem endless : ¬ ∃ b md, Ends top b md := by
  rw [ends_iff top top_ok]
  rintro ⟨c, hc⟩
  have hx : UsedBy top 1 ⟨10, 0, .pointer (.base 25), 2 ^ 32 - 1⟩ := ⟨by decide, 1, .refl, by decide⟩
  have hy : UsedBy top 1 ⟨11, 0, .pointer (.array (.base 26)), 2 ^ 32 - 1⟩ :=
    ⟨by decide, 1, .refl, by decide⟩
  have h1 := hc.order 1 (by decide) _ _ hx hy rfl
    (.inr ⟨rfl, .inl ⟨by unfold Sampler; decide, by unfold Sampler; decide⟩⟩)
  have h2 := hc.up ⟨10, 0, .pointer (.base 25), 2 ^ 32 - 1⟩
  have h3 := hc.fits _ hy.1
  simp only at h2
  omega

/-- Recursive calls, which are not valid: 3 calls 4, 4 calls 5, 5 calls 3; entry 2 calls 5. -/
def recursive : Mod where
  decls := [tex 10 0, smp 11 0]
  users := fun v => if v = 10 then [some 5] else [some 4]
  calls := fun f => match f with
    | 1 => [3] | 2 => [5] | 3 => [4] | 4 => [5] | 5 => [3] | _ => []
  entries := [1, 2]
  keys := fun _ => [0]

/-- With recursion, what an entry point uses can be missed: for entry 2 alone the list lacks
variable 11, which 4 uses. -/
theorem recursion_missed :
    (visitOrder recursive 10).map (fun o => ((collect recursive o 2 0).map Var.id)) = some [10] ∧
    UsedBy recursive 2 ⟨11, 0, .pointer (.array (.base 26)), 0⟩ :=
  ⟨by decide, by decide, 4,
    .call (g := 5) (by decide) (.call (g := 3) (by decide) (.call (g := 4) (by decide) .refl)),
    by decide⟩

end Verif.Bindings
