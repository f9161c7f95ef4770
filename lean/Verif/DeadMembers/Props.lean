import Verif.DeadMembers.Lemmas
/-!
# C79: removing members that are not used keeps what is seen
-/
set_option linter.unusedSimpArgs false
set_option linter.unusedVariables false
namespace Verif.DeadMembers
open Spec

/-- The pass: `Value m t v v'` says that `v'` is what becomes of the value `v` of type `t`. -/
abbrev Value (m : Mod) : Nat → Val → Val → Prop := Shrunk m.ty (findLive m)

/-- Each value of a type has a counterpart. -/
theorem values_exist (m : Mod) (ok : Ok m) {t : Nat} {v : Val} (h : HasTy m.ty t v) :
    ∃ v', Value m t v v' := shrunk_exists h (findLive_inv ok)

/-- Values seen from outside, or by instructions the pass does not know, are not changed. -/
theorem seen_same (m : Mod) (ok : Ok m) {t : Nat} (h : Seen m t) {v v' : Val}
    (hv : Value m t v v') : v = v' := full_same (findLive_inv ok) hv (seen_full ok h)

/-- Nor are their types. -/
theorem seen_type (m : Mod) (ok : Ok m) {t : Nat} (h : Seen m t) :
    newTypes m.ty (findLive m) t = m.ty t := by
  cases seen_full ok h with
  | leaf e => unfold newTypes; rw [e]
  | vec e => unfold newTypes; rw [e]
  | arr e _ => unfold newTypes; rw [e]
  | @struct _ ms e h1 _ =>
    have hr : findLive m t = List.range ms.length :=
      asc_ext (findLive_inv ok t ms e).1 List.pairwise_lt_range fun x => by
        rw [List.mem_range]; exact ⟨(findLive_inv ok t ms e).2 x, h1 x⟩
    unfold newTypes
    rw [e]
    simp [hr]

theorem path_live (m : Mod) {i : Inst} (hi : i ∈ m.insts) {t : Nat} {p : List Nat}
    (h : i = .extract t p ∨ i = .chain t p ∨ ∃ e, i = .ptrChain t e p) :
    PathLive m.ty (findLive m) p t := by
  obtain ⟨v, hv⟩ := inst_reached m hi
  rcases h with rfl | rfl | ⟨e, rfl⟩ <;> exact (markPath_live m.ty p t v).mono hv

/-- A path all of whose members are kept has new indices. -/
theorem upd_live {ty : Types} {u : Used} (hi : Inv ty u) (p : List Nat) (t : Nat) {s : Nat}
    (hl : PathLive ty u p t) (hs : tyAt ty p t = some s) : ∃ p', updPath ty u p t = some p' := by
  induction p generalizing t with
  | nil => exact ⟨[], rfl⟩
  | cons i p ih =>
    cases ht : ty t with
    | leaf => simp [tyAt, ht] at hs
    | vec e =>
      simp only [tyAt, ht] at hs
      simp only [PathLive, ht] at hl
      obtain ⟨q, hq⟩ := ih e hl hs
      obtain ⟨n1, n2⟩ := newTypes_other (ty := ty) (u := u) (t := t) (by simp [ht])
      exact ⟨i :: q, by simp [updPath, n1, n2, ht, hq]⟩
    | arr e =>
      simp only [tyAt, ht] at hs
      simp only [PathLive, ht] at hl
      obtain ⟨q, hq⟩ := ih e hl hs
      obtain ⟨n1, n2⟩ := newTypes_other (ty := ty) (u := u) (t := t) (by simp [ht])
      exact ⟨i :: q, by simp [updPath, n1, n2, ht, hq]⟩
    | struct ms =>
      simp only [tyAt, ht] at hs
      simp only [PathLive, ht] at hl
      cases hm : ms[i]? with
      | none => simp [hm] at hs
      | some x =>
        simp only [hm] at hs
        have hgd : ms.getD i 0 = x := by rw [List.getD_eq_getElem?_getD, hm]; rfl
        rw [hgd] at hl
        obtain ⟨q, hq⟩ := ih x hl.2 hs
        have hk : newIdx ty u t i = some ((u t).idxOf i) := by simp [newIdx, ht, hl.1]
        have hu := (newIdx_some ht hk).1
        have hmm : ((u t).map fun i => ms.getD i 0).getD ((u t).idxOf i) 0 = x := by
          rw [List.getD_eq_getElem?_getD, List.getElem?_map, hu]
          exact hgd
        exact ⟨(u t).idxOf i :: q, by simp only [updPath, hk, newTypes_struct hi ht, hmm, hq,
          Option.map_some]⟩

/-- Extracts and access chains: the new indices lead to the counterpart of the same part, for
reading and for writing. -/
theorem parts_kept (m : Mod) (ok : Ok m) {i : Inst} (hi : i ∈ m.insts) {t s : Nat} {p : List Nat}
    (h : i = .extract t p ∨ i = .chain t p ∨ ∃ e, i = .ptrChain t e p)
    (hs : tyAt m.ty p t = some s) :
    ∃ p', (i = .extract t p → updInst m.ty (findLive m) i = some (.extract t p')) ∧
      (i = .chain t p → updInst m.ty (findLive m) i = some (.chain t p')) ∧
      (∀ e, i = .ptrChain t e p → updInst m.ty (findLive m) i = some (.ptrChain t e p')) ∧
      ∀ v v', Value m t v v' →
        (∀ w, getAt p v = some w → ∃ w', getAt p' v' = some w' ∧ Value m s w w') ∧
        (∀ o o' w, Value m s o o' → setAt o p v = some w →
          ∃ w', setAt o' p' v' = some w' ∧ Value m t w w') := by
  have inv := findLive_inv ok
  have live := path_live m hi h
  obtain ⟨p', hp⟩ := upd_live inv p t live hs
  refine ⟨p', ?_, ?_, ?_, ?_⟩
  · rintro rfl; simp [updInst, hp]
  · rintro rfl; simp [updInst, hp]
  · rintro e rfl; simp [updInst, hp]
  · intro v v' hv
    refine ⟨?_, ?_⟩
    · intro w hw
      obtain ⟨q, w', h1, h2, h3⟩ := get_kept inv ok.vec p t hv live hs hw
      rw [hp] at h1
      cases h1
      exact ⟨w', h2, h3⟩
    · intro o o' w ho hw
      exact (set_kept inv ok.vec p t hv ho hs hw).1 p' hp

/-- Extracts as specialization constants: likewise. -/
theorem spec_parts_kept (m : Mod) (ok : Ok m) {t : Nat} {p : List Nat}
    (h : .specExtract t p ∈ m.globals) :
    ∃ s p', tyAt m.ty p t = some s ∧ updPath m.ty (findLive m) p t = some p' ∧
      ∀ v v' w, Value m t v v' → getAt p v = some w →
        ∃ w', getAt p' v' = some w' ∧ Value m s w w' := by
  have inv := findLive_inv ok
  obtain ⟨s, hs⟩ := ok.globals t p h
  obtain ⟨u, hu⟩ := global_reached m h
  have live : PathLive m.ty (findLive m) p t := (markPath_live m.ty p t u).mono hu
  obtain ⟨p', hp⟩ := upd_live inv p t live hs
  refine ⟨s, p', hs, hp, fun v v' w hv hw => ?_⟩
  obtain ⟨q, w', h1, h2, h3⟩ := get_kept inv ok.vec p t hv live hs hw
  rw [hp] at h1
  cases h1
  exact ⟨w', h2, h3⟩

/-- Inserts that stay insert the counterpart. -/
theorem insert_kept (m : Mod) (ok : Ok m) {t s : Nat} {p : List Nat} (hs : tyAt m.ty p t = some s)
    {j : Inst} (hj : updInst m.ty (findLive m) (.insert t p) = some j) :
    ∃ p', j = .insert t p' ∧ ∀ v v' o o' w, Value m t v v' → Value m s o o' → setAt o p v = some w →
      ∃ w', setAt o' p' v' = some w' ∧ Value m t w w' := by
  cases hp : updPath m.ty (findLive m) p t with
  | none => simp [updInst, hp] at hj
  | some p' =>
    simp [updInst, hp] at hj
    exact ⟨p', hj.symm, fun v v' o o' w hv ho hw =>
      (set_kept (findLive_inv ok) ok.vec p t hv ho hs hw).1 p' hp⟩

/-- Inserts that are removed: the result is the composite they insert into, which would have to
take their place. -/
theorem insert_removed (m : Mod) (ok : Ok m) {t s : Nat} {p : List Nat}
    (hs : tyAt m.ty p t = some s) (hj : updInst m.ty (findLive m) (.insert t p) = none)
    {v v' o o' w : Val} (hv : Value m t v v') (ho : Value m s o o') (hw : setAt o p v = some w) :
    Value m t w v' := by
  refine (set_kept (findLive_inv ok) ok.vec p t hv ho hs hw).2 ?_
  cases hp : updPath m.ty (findLive m) p t with
  | none => rfl
  | some p' => simp [updInst, hp] at hj

/-- Composites that are constructed, and constants: the operands left over make the
counterpart. -/
theorem construct_kept (m : Mod) (ok : Ok m) {t : Nat} {vs vs' : List Val}
    (hlen : vs.length = vs'.length) (ht : HasTy m.ty t (.comp vs))
    (hs : ∀ ms, m.ty t = .struct ms → ∀ (i x : Nat) v v', ms[i]? = some x → vs[i]? = some v →
      vs'[i]? = some v' → Value m x v v')
    (ha : ∀ e, m.ty t = .arr e → ∀ (i : Nat) v v', vs[i]? = some v → vs'[i]? = some v' →
      Value m e v v')
    (hv : (m.ty t = .leaf ∨ ∃ e, m.ty t = .vec e) → vs = vs') :
    Value m t (.comp vs) (.comp (updConstruct m.ty (findLive m) t vs')) := by
  cases htd : m.ty t with
  | leaf =>
    rw [updConstruct_other (by simp [htd]), hv (.inl htd)]
    exact .leaf htd
  | vec e =>
    rw [updConstruct_other (by simp [htd]), hv (.inr ⟨e, htd⟩)]
    exact .vec htd
  | arr e =>
    rw [updConstruct_other (by simp [htd])]
    exact .arr htd hlen (ha e htd)
  | struct ms =>
    have hl : vs.length = ms.length := by
      cases ht with
      | leaf h => rw [htd] at h; cases h
      | vec h => rw [htd] at h; cases h
      | arr h => rw [htd] at h; cases h
      | struct h hl => rw [htd] at h; cases h; exact hl
    obtain ⟨h1, h2⟩ := updConstruct_struct (findLive_inv ok) htd (l := vs') (by omega)
    refine .struct htd hl h1 ?_
    intro k i x v v' q1 q2 q3 q4
    rw [h2 k i q1] at q4
    exact hs ms htd i x v v' q2 q3 q4

/-- Names and decorations of members: a member that stays keeps its type, at its new index; each
member of the new structure is one of the old ones; the order is kept. -/
theorem members_follow (m : Mod) (ok : Ok m) {t : Nat} {ms : List Nat} (ht : m.ty t = .struct ms) :
    ∃ ms', newTypes m.ty (findLive m) t = .struct ms' ∧
      (∀ i k, updMember m.ty (findLive m) t i = some k → k < ms'.length ∧ ms'[k]? = ms[i]?) ∧
      (∀ k, k < ms'.length → ∃ i, updMember m.ty (findLive m) t i = some k) ∧
      (∀ i j k l, updMember m.ty (findLive m) t i = some k → updMember m.ty (findLive m) t j = some l →
        (i < j ↔ k < l)) ∧
      (∀ v v', Value m t (.comp v) (.comp v') → ∀ i k x a a', updMember m.ty (findLive m) t i = some k →
        ms[i]? = some x → v[i]? = some a → v'[k]? = some a' → Value m x a a') := by
  have inv := findLive_inv ok
  refine ⟨_, newTypes_struct inv ht, ?_, ?_, ?_, ?_⟩
  · intro i k h
    have hu := (newIdx_iff inv ht).1 h
    have hk := (List.getElem?_eq_some_iff.1 hu).1
    have hi := (inv t ms ht).2 i (List.mem_of_getElem? hu)
    refine ⟨by simpa using hk, ?_⟩
    rw [List.getElem?_map, hu]
    simp [List.getD_eq_getElem?_getD, hi]
  · intro k hk
    simp at hk
    exact ⟨(findLive m t)[k], (newIdx_iff inv ht).2 (by simp)⟩
  · intro i j k l h1 h2
    have h1 := (newIdx_iff inv ht).1 h1
    have h2 := (newIdx_iff inv ht).1 h2
    obtain ⟨b1, e1⟩ := List.getElem?_eq_some_iff.1 h1
    obtain ⟨b2, e2⟩ := List.getElem?_eq_some_iff.1 h2
    have asc := List.pairwise_iff_getElem.1 (inv t ms ht).1
    rcases Nat.lt_trichotomy k l with hl | hl | hl
    · have := asc k l b1 b2 hl; omega
    · subst hl; omega
    · have := asc l k b2 b1 hl; omega
  · intro v v' hv i k x a a' hk hx ha ha'
    have hu := (newIdx_iff inv ht).1 hk
    generalize h1 : Val.comp v = w at hv
    generalize h2 : Val.comp v' = w' at hv
    cases hv with
    | leaf h => rw [ht] at h; cases h
    | vec h => rw [ht] at h; cases h
    | arr h => rw [ht] at h; cases h
    | struct h _ _ hrel =>
      cases h1; cases h2
      rw [ht] at h; cases h
      exact hrel k i x a a' hu hx ha ha'

/-- Groups: the targets are those of members that stay, with their new indices. -/
theorem groups_follow (m : Mod) (l : List (Nat × Nat)) (t k : Nat) :
    (t, k) ∈ updGroup m.ty (findLive m) l ↔
      ∃ i, (t, i) ∈ l ∧ updMember m.ty (findLive m) t i = some k := by
  unfold updGroup updMember
  simp only [List.mem_filterMap, Option.map_eq_some_iff, Prod.exists, Prod.mk.injEq]
  constructor
  · rintro ⟨a, i, h, k', h1, rfl, rfl⟩
    exact ⟨i, h, h1⟩
  · rintro ⟨i, h, h1⟩
    exact ⟨t, i, h, k, h1, rfl, rfl⟩

/-- OpArrayLength asks about the same member. -/
theorem length_kept (m : Mod) (ok : Ok m) {t i : Nat} (h : .arrayLength t i ∈ m.insts) :
    ∃ k, updMember m.ty (findLive m) t i = some k ∧
      updInst m.ty (findLive m) (.arrayLength t i) = some (.arrayLength t k) := by
  obtain ⟨ms, ht, -⟩ := ok.lengths t i h
  obtain ⟨v, hv⟩ := inst_reached m h
  have hm : i ∈ findLive m t := hv t i (mem_mark.2 (.inr ⟨rfl, rfl⟩))
  refine ⟨(findLive m t).idxOf i, ?_, ?_⟩
  · simp [updMember, newIdx, ht, hm]
  · simp [updInst, newIdx, ht, hm]

/-! ### A module -/

/-- 1: a structure of a scalar, an array (2) of structures (3), a vector (4); 3 has three members.
-/
def sample : Mod where
  ty := fun t => match t with
    | 1 => .struct [0, 2, 4]
    | 2 => .arr 3
    | 3 => .struct [0, 4, 0]
    | 4 => .vec 0
    | _ => .leaf
  depth := 4
  globals := [.otherVar 1, .inOut 4]
  insts := [.chain 1 [1, 7, 2], .load 0, .extract 3 [1, 0], .insert 1 [0], .insert 1 [1, 5, 2],
    .store 4, .other [0, 4]]

theorem sample_ok : Ok sample where
  rank := by
    refine ⟨fun t => match t with | 1 => 3 | 2 => 2 | 3 => 1 | _ => 0, ?_, ?_, ?_⟩
    · intro t; dsimp only; split <;> simp [sample]
    · intro t ms x h hx
      simp only [sample] at h
      split at h <;> simp at h <;> subst h <;> simp at hx <;> rcases hx with rfl | rfl | rfl <;> simp
    · intro t e h
      simp only [sample] at h
      split at h <;> simp at h
      subst h; simp
  vec := by
    intro t e h
    simp only [sample] at h
    split at h <;> simp at h
    subst h
    exact .inl rfl
  paths := by
    intro i hi t p h
    simp [sample] at hi
    rcases hi with rfl | rfl | rfl | rfl | rfl | rfl | rfl <;> simp at h
    · obtain ⟨rfl, rfl⟩ := h; exact ⟨0, rfl⟩
    · obtain ⟨rfl, rfl⟩ := h; exact ⟨0, rfl⟩
  globals := by intro t p h; simp [sample] at h
  lengths := by intro t i h; simp [sample] at h

/-- Member 1 of the first structure and 1 and 2 of the other stay. -/
example : findLive sample 1 = [1] ∧ findLive sample 3 = [1, 2] ∧
    newTypes sample.ty (findLive sample) 1 = .struct [2] ∧
    newTypes sample.ty (findLive sample) 3 = .struct [4, 0] ∧
    updPath sample.ty (findLive sample) [1, 7, 2] 1 = some [0, 7, 1] ∧
    updPath sample.ty (findLive sample) [0] 1 = none := by decide

example : Seen sample 4 := .inOut (by simp [sample])

example (o : Val) (a b c : Val) : ∃ p',
    updInst sample.ty (findLive sample) (.chain 1 [1, 7, 2]) = some (.chain 1 p') := by
  obtain ⟨p', -, h, -⟩ := parts_kept sample sample_ok (i := .chain 1 [1, 7, 2]) (by simp [sample])
    (.inr (.inl rfl)) (s := 0) rfl
  exact ⟨p', h rfl⟩

/-! ### Findings -/

/-- The result of an insert into member 1 is the composite of an extract of member 0. -/
def chained : Mod where
  ty := fun t => if t = 1 then .struct [0, 0] else .leaf
  depth := 2
  globals := []
  insts := [.insert 1 [1], .extract 1 [0]]

/-- The insert is removed although the extract uses its result: `KillInst` does not put anything in
its place (eliminate_dead_members_pass.cpp:637-640), so the extract refers to an id without a
definition. -/
theorem insert_dangling : updInst chained.ty (findLive chained) (.insert 1 [1]) = none ∧
    updInst chained.ty (findLive chained) (.extract 1 [0]) = some (.extract 1 [0]) := by
  constructor <;> first | rfl | decide

/-- An access chain on an untyped pointer, to member 1. -/
def untypedChain : Mod where
  ty := fun t => if t = 1 then .struct [0, 0] else .leaf
  depth := 2
  globals := []
  insts := [.untyped 1 [1] [5]]

/-- The structure loses all members, the chain keeps its index: the type of an operand is looked
at, but not an operand that is a type (eliminate_dead_members_pass.cpp:703-708). -/
theorem untyped_broken : newTypes untypedChain.ty (findLive untypedChain) 1 = .struct [] ∧
    updInst untypedChain.ty (findLive untypedChain) (.untyped 1 [1] [5]) = some (.untyped 1 [1] [5]) ∧
    tyAt untypedChain.ty [1] 1 = some 0 ∧
    tyAt (newTypes untypedChain.ty (findLive untypedChain)) [1] 1 = none := by
  refine ⟨by decide, rfl, by decide, by decide⟩

/-- A ray payload, or another variable that is shared with other shaders: only member 1 is
accessed. -/
def payload : Mod where
  ty := fun t => if t = 1 then .struct [0, 0] else .leaf
  depth := 2
  globals := [.otherVar 1]
  insts := [.chain 1 [1]]

/-- The structure is changed, although the other shader keeps its own. -/
theorem payload_shrunk : newTypes payload.ty (findLive payload) 1 = .struct [0] ∧
    updInst payload.ty (findLive payload) (.chain 1 [1]) = some (.chain 1 [0]) := by
  constructor <;> first | rfl | decide

end Verif.DeadMembers
