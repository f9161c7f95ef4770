import Verif.Locations.Refuse

/-!
# C69: the locations of an interface

Read `Spec.lean` first: `placements ep` is what the interface of `ep` puts where, `takes` which slots
(components of locations) that needs.

* `no_false_conflict`: the validator reports a conflict only if two placements do share a slot.
* `apart_accepted`: an interface that is decorated as it should be, with no slot taken twice, is
  accepted.
* `accepted_located`: in an accepted interface all that needs a location has one.
* `accepted_apart_partial`: in an accepted interface no slot below location 4096 is taken twice. What
  is missing is in the hypothesis `Shaped`: variables that are arrays of arrays, and members that are
  arrays of scalars or vectors of four components or more. For these the statement does not hold:
  `array_member_missed`, `array_of_arrays_missed`. Above location 4095 it does not hold either:
  `high_location_missed`.
-/

namespace Verif.Locations
open Spec

/-- Types are given the number of locations they take. -/
theorem locations_counted (t : Ty) (h : Plain t) (hs : locs t < 2 ^ 32) :
    t.numLocs = (true, locs t) := by
  rw [numLocs_plain t h, u32_of_lt hs]

example : Plain (.arr (.struct [] [.mat true 3 2, .vec false 3]) (some 7)) ∧
    locs (.arr (.struct [] [.mat true 3 2, .vec false 3]) (some 7)) = 35 := by
  constructor
  · simp [Plain, PlainList]
  · decide

/-- **C69**, no conflict is made up: if one is reported, two placements of the interface share a
slot. -/
theorem no_false_conflict (ep : Entry) (s : Nat) (ha : ∀ v ∈ ep.vars, Agree v)
    (hf : ∀ p ∈ placements ep, Fits p) (h : ep.validate = .conflict s) :
    ¬ AllApart (placements ep) := by
  have he : ep.exec ≠ .other := by
    intro he; simp [Entry.validate, he] at h
  rcases validate_eq ep he ha with hv | hv
  · rw [hv] at h; cases h
  · rw [hv] at h
    cases hm : markAll (placements ep) (fun _ => []) with
    | ok st => rw [hm] at h; simp [Out.bind] at h
    | bad => exact absurd hm (markAll_ne_bad _ _)
    | conflict s' =>
      intro hap
      rcases markAll_conflict _ _ _ hm (fun p hp => slots_nodup (hf p hp)) with ⟨p, _, _, hs⟩ | hn
      · simp at hs
      · refine hn (List.Pairwise.imp_of_mem ?_ hap)
        intro p q hp hq hpq hk s hs
        exact hpq hk s ⟨slots_sound (hf p hp) (tileOk ep p hp) hs.1,
          slots_sound (hf q hq) (tileOk ep q hq) hs.2⟩

/-- **C69**, what is right is accepted: every variable decorated as it should be, and no slot taken
twice. -/
theorem apart_accepted (ep : Entry) (ha : ∀ v ∈ ep.vars, Agree v)
    (hw : ∀ v ∈ ep.vars, v.cls ≠ .other → Placed ep.exec v)
    (hf : ∀ p ∈ placements ep, Fits p) (hap : AllApart (placements ep)) : ep.validate = .ok () := by
  cases h : ep.validate with
  | ok u => rfl
  | conflict s => exact absurd hap (no_false_conflict ep s ha hf h)
  | bad =>
    exfalso
    have he : ep.exec ≠ .other := by
      intro he; simp [Entry.validate, he] at h
    simp only [Entry.validate, he, if_false] at h
    cases hl : loop ep.exec ep.streams ep.vars [] (fun _ => []) with
    | ok st => rw [hl] at h; simp [Out.bind] at h
    | conflict s => rw [hl] at h; simp [Out.bind] at h
    | bad => exact loop_ne_bad ep.vars [] _ hw (fun p hp => (hf p hp).plain) hl

/-- **C69**, conflicts are found: in an accepted interface no slot of the first 4096 locations is
taken twice. Partial: for the shapes in `Shaped`, and up to that location. -/
theorem accepted_apart_partial (ep : Entry) (he : ep.exec ≠ .other) (ha : ∀ v ∈ ep.vars, Agree v)
    (hf : ∀ p ∈ placements ep, Fits p) (hs : ∀ p ∈ placements ep, Shaped p)
    (h : ep.validate = .ok ()) : Apart (4096 * 4) (placements ep) := by
  rcases validate_eq ep he ha with hv | hv
  · rw [hv] at h; cases h
  · rw [hv] at h
    cases hm : markAll (placements ep) (fun _ => []) with
    | ok st =>
      refine List.Pairwise.imp_of_mem ?_ (markAll_ok _ _ _ hm).2
      intro p q hp hq hpq hk s hb ht
      exact hpq hk s ⟨slots_cover (hf p hp) (hs p hp) (tileOk ep p hp) hb ht.1,
        slots_cover (hf q hq) (hs q hq) (tileOk ep q hq) hb ht.2⟩
    | bad => exact absurd hm (markAll_ne_bad _ _)
    | conflict s => rw [hm] at h; simp [Out.bind] at h

/-- **C69**, locations are there: in an accepted interface every input or output is a built-in, has a
location, or is a block all of whose members have one; and what has a location can have one. -/
theorem accepted_located (ep : Entry) (he : ep.exec ≠ .other) (h : ep.validate = .ok ()) :
    ∀ v ∈ once ep.vars [], v.cls = .input ∨ v.cls = .output →
      Located ep.exec v ∧ ∀ p ∈ placedBy ep.exec ep.streams v, p.Holds := by
  intro v hv hc
  simp only [Entry.validate, he, if_false] at h
  cases hl : loop ep.exec ep.streams ep.vars [] (fun _ => []) with
  | ok st =>
    obtain ⟨s, s', ho⟩ := loop_ok ep.vars [] _ st hl v hv
    exact oneVar_ok hc ho
  | conflict s => rw [hl] at h; cases h
  | bad => rw [hl] at h; cases h

/-! ### A case with blocks, arrays, components and a built-in -/

/-- `float a[3]` at location 0, component 1; `dvec3 b` at location 3. -/
def blockTy : Ty :=
  .struct [(none, .block), (some 0, .location 0), (some 0, .component 1), (some 1, .location 3)]
    [.arr (.scalar false) (some 3), .vec true 3]

/-- A vertex shader with outputs: the block; `vec2 c[2]` at location 1, component 2; a built-in.
The second is listed twice. -/
def good : Entry where
  exec := .vertex
  streams := false
  vars := [⟨1, .output, blockTy, []⟩,
    ⟨2, .output, .arr (.vec false 2) (some 2), [.location 1, .component 2]⟩,
    ⟨3, .output, .vec false 4, [.builtIn]⟩,
    ⟨2, .output, .arr (.vec false 2) (some 2), [.location 1, .component 2]⟩]

example : good.validate = .ok () := by decide +kernel

example : (once good.vars []).map (·.id) = [1, 2, 3] := by decide

theorem good_placements : placements good =
    [⟨.output false, .arr (.scalar false) (some 3), 0, 1, true⟩,
     ⟨.output false, .vec true 3, 3, 0, true⟩,
     ⟨.output false, .arr (.vec false 2) (some 2), 1, 2, false⟩] := by
  simp [placements, good, once, placedBy, placed, carried, perVertex, builtInStruct, blockTy,
    locationOf, membersPlaced, memberLocation, memberComponent, componentOf, keyOf, List.findSome?]

example : (∀ v ∈ good.vars, Agree v) ∧ (∀ p ∈ placements good, Fits p) ∧
    (∀ p ∈ placements good, Shaped p) := by
  rw [good_placements]
  refine ⟨?_, ?_, ?_⟩
  · simp [good, Agree]
  · intro p hp
    simp at hp
    rcases hp with rfl | rfl | rfl <;> constructor <;> simp [Plain, locs]
  · intro p hp
    simp at hp
    rcases hp with rfl | rfl | rfl <;> simp [Shaped, width]

example : ∀ v ∈ good.vars, v.cls ≠ .other → Placed good.exec v := by
  intro v hv _
  simp only [good, List.mem_cons, List.not_mem_nil, or_false] at hv
  rcases hv with rfl | rfl | rfl | rfl
  · refine .inr ⟨by simp, by simp, .inr (.inr (.inr ⟨_, _, rfl, by simp, ?_, ?_, ?_⟩))⟩
    · intro i hi
      have : i = 0 ∨ i = 1 := by simp at hi; omega
      rcases this with rfl | rfl
      · exact ⟨0, by simp⟩
      · exact ⟨3, by simp⟩
    · intro i m n h1 h2; simp at h1 h2; rcases h1 with ⟨rfl, rfl⟩ | ⟨rfl, rfl⟩ <;> simp_all
    · intro i m n h1 h2; simp at h1 h2; simp_all
  · exact .inr ⟨by simp, by simp, .inr (.inr (.inl rfl))⟩
  · exact .inr ⟨by simp, by simp, .inl (by simp)⟩
  · exact .inr ⟨by simp, by simp, .inr (.inr (.inl rfl))⟩

/-- The same with `vec2 c[2]` one component to the left. -/
def clash : Entry :=
  { good with vars := [⟨1, .output, blockTy, []⟩,
      ⟨2, .output, .arr (.vec false 2) (some 2), [.location 1, .component 1]⟩] }

example : clash.validate = .conflict 5 := by decide +kernel

/-! ### Where conflicts are missed -/

/-- Two placements of the same kind at different places in the list share slot `s`. -/
def Clash (ep : Entry) (s : Nat) : Prop :=
  ∃ p q, [p, q].Sublist (placements ep) ∧ p.key = q.key ∧ p.takes s ∧ q.takes s

theorem Clash.not_apart {ep : Entry} {s : Nat} (h : Clash ep s) : ¬ AllApart (placements ep) := by
  obtain ⟨p, q, hs, hk, hp, hq⟩ := h
  intro ha
  have := List.Pairwise.sublist hs ha
  simp at this
  exact this hk s hp hq

/-- A block with `vec4 a[2]` at location 0 and `vec4 b` at location 1. -/
def arrayMember : Entry where
  exec := .vertex
  streams := false
  vars := [⟨1, .output, .struct [(none, .block), (some 0, .location 0), (some 1, .location 1)]
    [.arr (.vec false 4) (some 2), .vec false 4], []⟩]

/-- Members that are arrays of vectors of four components: only the first element is looked at, so
that `vec4 a[2]` at location 0 and `vec4 b` at location 1 are accepted in a block. -/
theorem array_member_missed : ∃ ep : Entry, ep.exec ≠ .other ∧ (∀ v ∈ ep.vars, Agree v) ∧
    (∀ p ∈ placements ep, Fits p) ∧ ep.validate = .ok () ∧ Clash ep 4 := by
  have e : placements arrayMember =
      [⟨.output false, .arr (.vec false 4) (some 2), 0, 0, true⟩,
       ⟨.output false, .vec false 4, 1, 0, true⟩] := by
    simp [placements, arrayMember, once, placedBy, placed, carried, perVertex, builtInStruct,
      locationOf, membersPlaced, memberLocation, memberComponent, componentOf, keyOf, List.findSome?]
  refine ⟨arrayMember, by decide, ?_, ?_, by decide +kernel, ?_⟩
  · simp [arrayMember, Agree]
  · rw [e]; intro p hp
    simp at hp
    rcases hp with rfl | rfl <;> constructor <;> simp [Plain, locs]
  · rw [Clash, e]
    refine ⟨_, _, List.Sublist.refl _, rfl, ?_, ?_⟩
    · exact ⟨4, ⟨1, by decide, 0, by simp [uses], by decide⟩, by decide⟩
    · exact ⟨0, by simp [uses], by decide⟩

/-- `float a[2][2]` at location 0 and `float b` at location 1. -/
def arrayOfArrays : Entry where
  exec := .fragment
  streams := false
  vars := [⟨1, .input, .arr (.arr (.scalar false) (some 2)) (some 2), [.location 0]⟩,
    ⟨2, .input, .scalar false, [.location 1]⟩]

/-- Variables that are arrays of arrays: only the first element of each inner array is looked at, so
that `float a[2][2]` at location 0 and `float b` at location 1 are accepted. -/
theorem array_of_arrays_missed : ∃ ep : Entry, ep.exec ≠ .other ∧ (∀ v ∈ ep.vars, Agree v) ∧
    (∀ p ∈ placements ep, Fits p) ∧ ep.validate = .ok () ∧ Clash ep 4 := by
  have e : placements arrayOfArrays =
      [⟨.input, .arr (.arr (.scalar false) (some 2)) (some 2), 0, 0, false⟩,
       ⟨.input, .scalar false, 1, 0, false⟩] := by
    simp [placements, arrayOfArrays, once, placedBy, placed, carried, perVertex, builtInStruct,
      locationOf, componentOf, keyOf, List.findSome?]
  refine ⟨arrayOfArrays, by decide, ?_, ?_, by decide +kernel, ?_⟩
  · simp [arrayOfArrays, Agree]
  · rw [e]; intro p hp
    simp at hp
    rcases hp with rfl | rfl <;> constructor <;> simp [Plain, locs]
  · rw [Clash, e]
    refine ⟨_, _, List.Sublist.refl _, rfl, ?_, ?_⟩
    · exact ⟨4, ⟨0, by decide, 4, ⟨1, by decide, 0, by simp [uses], by decide⟩, by decide⟩, by decide⟩
    · exact ⟨0, by simp [uses], by decide⟩

/-- Two variables at location 4096. -/
def highLocation : Entry where
  exec := .fragment
  streams := false
  vars := [⟨1, .input, .scalar false, [.location 4096]⟩, ⟨2, .input, .scalar false, [.location 4096]⟩]

/-- From location 4096 on nothing is looked at: two variables at the same location are accepted. -/
theorem high_location_missed : ∃ ep : Entry, ep.exec ≠ .other ∧ (∀ v ∈ ep.vars, Agree v) ∧
    (∀ p ∈ placements ep, Fits p) ∧ (∀ p ∈ placements ep, Shaped p) ∧ ep.validate = .ok () ∧
    Clash ep (4 * 4096) := by
  have e : placements highLocation =
      [⟨.input, .scalar false, 4096, 0, false⟩, ⟨.input, .scalar false, 4096, 0, false⟩] := by
    simp [placements, highLocation, once, placedBy, placed, carried, perVertex, builtInStruct,
      locationOf, componentOf, keyOf, List.findSome?]
  refine ⟨highLocation, by decide, ?_, ?_, ?_, by decide +kernel, ?_⟩
  · simp [highLocation, Agree]
  · rw [e]; intro p hp
    simp at hp
    subst hp; constructor <;> simp [Plain, locs]
  · rw [e]; intro p hp
    simp at hp
    subst hp; simp [Shaped]
  · rw [Clash, e]
    exact ⟨_, _, List.Sublist.refl _, rfl, ⟨0, by simp [uses], by decide⟩, ⟨0, by simp [uses], by decide⟩⟩

/-- A type that cannot have a location is turned down by itself, but not in an array of arrays: the
error of the inner call is dropped, and the variable is accepted with no locations. -/
theorem dropped_error : ∃ (t : Ty) (d : List Dec), locationOf d = some 0 ∧
    (Entry.mk .vertex false [⟨1, .output, t, d⟩]).validate = .bad ∧
    (Entry.mk .vertex false [⟨1, .output, .arr t (some 2), d⟩]).validate = .bad ∧
    (Entry.mk .vertex false [⟨1, .output, .arr (.arr t (some 2)) (some 2), d⟩]).validate = .ok () :=
  ⟨.other, [.location 0], rfl, by decide +kernel, by decide +kernel, by decide +kernel⟩

end Verif.Locations
