import Verif.PrivLocal.Spec
/-!
# What is moved, and what the module is afterwards
-/
set_option linter.unusedSimpArgs false
set_option linter.unusedVariables false
set_option linter.unusedSectionVars false
namespace Verif.PrivLocal
open Spec

theorem flatMap_unique {α β : Type} {f : α → List β} {l : List α} (h : (l.flatMap f).Nodup) {a b : α} {x : β}
    (ha : a ∈ l) (hb : b ∈ l) (hx : x ∈ f a) (hy : x ∈ f b) : a = b := by
  induction l with
  | nil => cases ha
  | cons c l ih =>
    rw [List.flatMap_cons, List.nodup_append] at h
    obtain ⟨h1, h2, h3⟩ := h
    rcases List.mem_cons.1 ha with e | ha' <;> rcases List.mem_cons.1 hb with e' | hb'
    · rw [e, e']
    · rw [e] at hx
      exact absurd rfl (h3 x hx x (List.mem_flatMap.2 ⟨b, hb', hy⟩))
    · rw [e'] at hy
      exact absurd rfl (h3 x hy x (List.mem_flatMap.2 ⟨a, ha', hx⟩))
    · exact ih h2 ha' hb'

theorem flatMap_nodup_mem {α β : Type} {f : α → List β} {l : List α} (h : (l.flatMap f).Nodup) {a : α}
    (ha : a ∈ l) : (f a).Nodup := by
  induction l with
  | nil => cases ha
  | cons c l ih =>
    rw [List.flatMap_cons, List.nodup_append] at h
    rcases List.mem_cons.1 ha with e | ha'
    · rw [e]; exact h.1
    · exact ih h.2.1 ha'

theorem mem_items {m : Mod} {g : Id} {u : Item} :
    (g, u) ∈ m.items ↔ ∃ f ∈ m.fns, f.id = g ∧ u ∈ f.items := by
  simp only [Mod.items, List.mem_flatMap, List.mem_map, Prod.mk.injEq]
  constructor
  · rintro ⟨f, hf, i, hi, rfl, rfl⟩; exact ⟨f, hf, rfl, hi⟩
  · rintro ⟨f, hf, rfl, hi⟩; exact ⟨f, hf, u, hi, rfl, rfl⟩

theorem mem_users {m : Mod} {i g : Id} {u : Item} : (g, u) ∈ m.users i ↔ (g, u) ∈ m.items ∧ i ∈ u.ops := by
  simp [Mod.users]

section
variable {m : Mod} (hn : (Mod.allDefs m).Nodup)
include hn

theorem rest_nodup : (m.fns.flatMap fun f => f.id :: f.params ++ f.items.flatMap defs).Nodup := by
  rw [Mod.allDefs, List.nodup_append] at hn
  exact hn.2.1

theorem global_unique {v w : Var} (hv : v ∈ m.globals) (hw : w ∈ m.globals) (e : v.id = w.id) : v = w := by
  rw [Mod.allDefs, List.nodup_append] at hn
  have h := hn.1
  generalize m.globals = l at *
  induction l with
  | nil => cases hv
  | cons c l ih =>
    rw [List.map_cons, List.nodup_cons] at h
    rcases List.mem_cons.1 hv with e1 | hv' <;> rcases List.mem_cons.1 hw with e2 | hw'
    · rw [e1, e2]
    · exact absurd (List.mem_map.2 ⟨w, hw', by rw [← e, e1]⟩) h.1
    · exact absurd (List.mem_map.2 ⟨v, hv', by rw [e, e2]⟩) h.1
    · refine ih ?_ hv' hw' h.2
      refine ⟨h.2, hn.2.1, ?_⟩
      intro a ha b hb
      exact hn.2.2 a (List.mem_cons_of_mem _ ha) b hb

theorem global_not_def {v : Var} (hv : v ∈ m.globals) {g : Id} {u : Item} (hu : (g, u) ∈ m.items) :
    v.id ∉ defs u := by
  intro h
  rw [Mod.allDefs, List.nodup_append] at hn
  obtain ⟨f, hf, _, hi⟩ := mem_items.1 hu
  refine hn.2.2 v.id (List.mem_map.2 ⟨v, hv, rfl⟩) v.id ?_ rfl
  exact List.mem_flatMap.2 ⟨f, hf, List.mem_append_right _ (List.mem_flatMap.2 ⟨u, hi, h⟩)⟩

theorem global_not_param {v : Var} (hv : v ∈ m.globals) {f : Fn} (hf : f ∈ m.fns) : v.id ∉ f.params := by
  intro h
  rw [Mod.allDefs, List.nodup_append] at hn
  refine hn.2.2 v.id (List.mem_map.2 ⟨v, hv, rfl⟩) v.id ?_ rfl
  exact List.mem_flatMap.2 ⟨f, hf, List.mem_append_left _ (List.mem_cons_of_mem _ h)⟩

theorem def_unique {g g' : Id} {u u' : Item} {r : Id} (h : (g, u) ∈ m.items) (h' : (g', u') ∈ m.items)
    (hr : r ∈ defs u) (hr' : r ∈ defs u') : u = u' ∧ g = g' := by
  obtain ⟨f, hf, e, hi⟩ := mem_items.1 h
  obtain ⟨f', hf', e', hi'⟩ := mem_items.1 h'
  have hnd := rest_nodup hn
  have hff : f = f' := flatMap_unique hnd hf hf'
    (List.mem_append_right _ (List.mem_flatMap.2 ⟨u, hi, hr⟩))
    (List.mem_append_right _ (List.mem_flatMap.2 ⟨u', hi', hr'⟩))
  rw [← hff] at hi' e'
  have h1 := flatMap_nodup_mem hnd hf
  rw [List.nodup_append] at h1
  exact ⟨flatMap_unique h1.2.1 hi hi' hr hr', by rw [← e, ← e']⟩

theorem def_not_param {g : Id} {u : Item} {r : Id} (h : (g, u) ∈ m.items) (hr : r ∈ defs u) {f : Fn}
    (hf : f ∈ m.fns) : r ∉ f.params := by
  intro hp
  obtain ⟨f', hf', e', hi'⟩ := mem_items.1 h
  have hnd := rest_nodup hn
  have hff : f = f' := flatMap_unique hnd hf hf'
    (List.mem_append_left _ (List.mem_cons_of_mem _ hp))
    (List.mem_append_right _ (List.mem_flatMap.2 ⟨u, hi', hr⟩))
  rw [← hff] at hi'
  have h1 := flatMap_nodup_mem hnd hf
  rw [List.nodup_append] at h1
  exact h1.2.2 r (List.mem_cons_of_mem _ hp) r (List.mem_flatMap.2 ⟨u, hi', hr⟩) rfl

end

/-! ## The decision -/

theorem find_dead (m : Mod) (n : Nat) (v : Id) (us : List (Id × Item)) :
    (us.foldl (m.find n v) (true, none)).2 = none := by
  induction us with
  | nil => rfl
  | cons u us ih =>
    rw [List.foldl_cons]
    have : m.find n v (true, none) u = (true, none) := by
      by_cases hv : m.valid n u.2 v = true <;> simp [Mod.find, hv]
    rw [this]; exact ih

theorem find_some (m : Mod) (n : Nat) (v f : Id) (us : List (Id × Item)) :
    (us.foldl (m.find n v) (true, some f)).2 =
      if ∀ u ∈ us, m.valid n u.2 v = true ∧ u.1 = f then some f else none := by
  induction us with
  | nil => simp
  | cons u us ih =>
    rw [List.foldl_cons]
    by_cases hv : m.valid n u.2 v = true
    · by_cases hf : u.1 = f
      · have : m.find n v (true, some f) u = (true, some f) := by simp [Mod.find, hv, hf]
        rw [this, ih]
        by_cases hall : ∀ w ∈ us, m.valid n w.2 v = true ∧ w.1 = f
        · rw [if_pos hall, if_pos]
          intro w hw
          rcases List.mem_cons.1 hw with e | hw
          · rw [e]; exact ⟨hv, hf⟩
          · exact hall w hw
        · rw [if_neg hall, if_neg]
          exact fun h => hall fun w hw => h w (List.mem_cons_of_mem _ hw)
      · have : m.find n v (true, some f) u = (true, none) := by
          have : ¬ f = u.1 := fun h => hf h.symm
          simp [Mod.find, hv, this]
        rw [this, find_dead]
        simp [hf]
    · have : m.find n v (true, some f) u = (true, none) := by simp [Mod.find, hv]
      rw [this, find_dead]
      simp [hv]

/-- A function is found if all uses are in it and accepted, and there is one. -/
theorem local_iff (m : Mod) (n : Nat) (v f : Id) :
    m.local n v = some f ↔ m.users v ≠ [] ∧ ∀ u ∈ m.users v, m.valid n u.2 v = true ∧ u.1 = f := by
  unfold Mod.local
  cases hu : m.users v with
  | nil => simp
  | cons u us =>
    rw [List.foldl_cons]
    by_cases hv : m.valid n u.2 v = true
    · have : m.find n v (false, none) u = (true, some u.1) := by simp [Mod.find, hv]
      rw [this, find_some]
      constructor
      · intro h
        split at h
        · rename_i hall
          cases h
          refine ⟨by simp, ?_⟩
          intro w hw
          rcases List.mem_cons.1 hw with e | hw
          · rw [e]; exact ⟨hv, rfl⟩
          · exact hall w hw
        · cases h
      · rintro ⟨_, h⟩
        have h1 := (h u List.mem_cons_self).2
        rw [if_pos, h1]
        intro w hw
        rw [h1]
        exact h w (List.mem_cons_of_mem _ hw)
    · have : m.find n v (false, none) u = (true, none) := by simp [Mod.find, hv]
      rw [this, find_dead]
      constructor
      · intro h; cases h
      · rintro ⟨_, h⟩
        exact absurd (h u List.mem_cons_self).1 hv

theorem mem_toMove {m : Mod} {n : Nat} {v : Var} {f : Id} :
    (v, f) ∈ m.toMove n ↔ v ∈ m.globals ∧ v.cls = .priv ∧ m.local n v.id = some f := by
  simp only [Mod.toMove, List.mem_filterMap]
  constructor
  · rintro ⟨w, hw, h⟩
    split at h
    · rename_i hc
      cases hl : m.local n w.id with
      | none => rw [hl] at h; cases h
      | some g =>
        rw [hl] at h
        simp only [Option.map_some, Option.some.injEq, Prod.mk.injEq] at h
        rw [← h.1, ← h.2]
        exact ⟨hw, hc, hl⟩
    · cases h
  · rintro ⟨h1, h2, h3⟩
    exact ⟨v, h1, by simp [h2, h3]⟩

/-! ## The module afterwards -/

/-- The variables moved to the function. -/
def added (T : List (Var × Id)) (f : Id) : List Var :=
  ((T.filter fun p => decide (p.2 = f)).map fun p => { p.1 with cls := .function }).reverse

theorem mem_added {T : List (Var × Id)} {f : Id} {w : Var} :
    w ∈ added T f ↔ ∃ v, (v, f) ∈ T ∧ w = { v with cls := .function } := by
  simp only [added, List.mem_reverse, List.mem_map, List.mem_filter, decide_eq_true_eq]
  constructor
  · rintro ⟨p, ⟨h1, h2⟩, rfl⟩; exact ⟨p.1, by rw [← h2]; exact h1, rfl⟩
  · rintro ⟨v, h, rfl⟩; exact ⟨(v, f), ⟨h, rfl⟩, rfl⟩

theorem moves (n : Nat) (T : List (Var × Id)) (m : Mod) :
    (T.foldl (Mod.move n) m).fns = m.fns.map (fun g => { g with locals := added T g.id ++ g.locals }) ∧
    (T.foldl (Mod.move n) m).globals = m.globals.filter (fun w => decide (w.id ∉ T.map (·.1.id))) ∧
    (T.foldl (Mod.move n) m).entries = m.entries ∧ (T.foldl (Mod.move n) m).v14 = m.v14 ∧
    (T.foldl (Mod.move n) m).addresses = m.addresses := by
  induction T generalizing m with
  | nil => exact ⟨by simp [added], (List.filter_eq_self.2 (fun _ _ => by simp)).symm, rfl, rfl, rfl⟩
  | cons p T ih =>
    rw [List.foldl_cons]
    obtain ⟨h1, h2, h3, h4, h5⟩ := ih (Mod.move n m p)
    refine ⟨?_, ?_, by rw [h3]; rfl, by rw [h4]; rfl, by rw [h5]; rfl⟩
    · rw [h1]
      simp only [Mod.move, List.map_map]
      apply List.map_congr_left
      intro g hg
      simp only [Function.comp, place]
      by_cases e : g.id = p.2
      · simp [e, added, List.filter_cons]
      · have : ¬ p.2 = g.id := fun h => e h.symm
        simp [e, this, added, List.filter_cons]
    · rw [h2]
      simp only [Mod.move, List.filter_filter]
      apply List.filter_congr
      intro w hw
      simp only [List.map_cons, List.mem_cons, not_or, Bool.decide_and, Bool.and_comm]

theorem run_fns {m : Mod} (n : Nat) (ha : m.addresses = false) :
    (m.run n).fns = m.fns.map (fun g => { g with locals := added (m.toMove n) g.id ++ g.locals }) := by
  rw [Mod.run, if_neg (by simp [ha]), Mod.trim]
  split <;> exact (moves n _ m).1

theorem run_globals {m : Mod} (n : Nat) (ha : m.addresses = false) :
    (m.run n).globals = m.globals.filter (fun w => decide (w.id ∉ (m.toMove n).map (·.1.id))) := by
  rw [Mod.run, if_neg (by simp [ha]), Mod.trim]
  split <;> exact (moves n _ m).2.1

theorem run_fn {m : Mod} (n : Nat) (ha : m.addresses = false) (f : Id) :
    Mod.fn (m.run n) f = (Mod.fn m f).map fun g => { g with locals := added (m.toMove n) f ++ g.locals } := by
  rw [Mod.fn, run_fns n ha, Mod.fn]
  generalize m.toMove n = T
  generalize m.fns = l
  induction l with
  | nil => rfl
  | cons g l ih =>
    rw [List.map_cons]
    by_cases e : g.id = f
    · rw [List.find?_cons_of_pos (by simp [e]), List.find?_cons_of_pos (by simp [e])]
      simp [e]
    · rw [List.find?_cons_of_neg (by simp [e]), List.find?_cons_of_neg (by simp [e])]
      exact ih

/-- The id is the address of a moved variable or of a part of it. -/
inductive Der (m : Mod) (n : Nat) (v : Var) (f : Id) : Id → Prop where
  | base : (v, f) ∈ m.toMove n → Der m n v f v.id
  | chain {b r g ix} : Der m n v f b → (g, Item.inst (.chain r b ix)) ∈ m.items → Der m n v f r

/-- Some moved variable. -/
def Moved (m : Mod) (n : Nat) (i : Id) : Prop := ∃ v f, (v, f) ∈ m.toMove n ∧ v.id = i

theorem Der.moved {m : Mod} {n : Nat} {v : Var} {f i : Id} (h : Der m n v f i) : (v, f) ∈ m.toMove n := by
  induction h with
  | base h => exact h
  | chain _ _ ih => exact ih

/-- What may be done with the address. -/
def Fine (i : Id) : Item → Prop
  | .inst (.load _ _) => True
  | .inst (.texel _ _) => True
  | .inst (.store _ x) => x ≠ i
  | .inst (.chain _ _ _) => True
  | _ => False

theorem fine_of_valid {m : Mod} {k : Nat} {u : Item} {i : Id} (h : m.valid k u i = true) : Fine i u := by
  cases k with
  | zero => simp [Mod.valid] at h
  | succ k =>
    cases u with
    | inst j => cases j <;> simp_all [Mod.valid, Fine]
    | _ => simp [Mod.valid] at h

theorem Der.uses {m : Mod} {n : Nat} {v : Var} {f i : Id} (h : Der m n v f i) :
    ∃ k, k ≤ n ∧ ∀ g u, (g, u) ∈ m.items → i ∈ u.ops → m.valid k u i = true := by
  induction h with
  | base h =>
    refine ⟨n, Nat.le_refl _, ?_⟩
    intro g u hu hi
    exact (((local_iff _ _ _ _).1 (mem_toMove.1 h).2.2).2 (g, u) (mem_users.2 ⟨hu, hi⟩)).1
  | @chain b r g ix hb hc ih =>
    obtain ⟨k, hkn, hk⟩ := ih
    have h1 := hk g _ hc (by simp [Item.ops])
    cases k with
    | zero => simp [Mod.valid] at h1
    | succ k =>
      refine ⟨k, by omega, ?_⟩
      intro g' u hu hi
      simp only [Mod.valid, List.all_eq_true] at h1
      exact h1 (g', u) (mem_users.2 ⟨hu, hi⟩)

theorem Der.fine {m : Mod} {n : Nat} {v : Var} {f i : Id} (h : Der m n v f i) {g : Id} {u : Item}
    (hu : (g, u) ∈ m.items) (hi : i ∈ u.ops) : Fine i u := by
  obtain ⟨k, _, hk⟩ := h.uses
  exact fine_of_valid (hk g u hu hi)

theorem base_fn {m : Mod} {n : Nat} {v : Var} {f g : Id} {u : Item} (h : (v, f) ∈ m.toMove n)
    (hu : (g, u) ∈ m.items) (hi : v.id ∈ u.ops) : g = f :=
  (((local_iff _ _ _ _).1 (mem_toMove.1 h).2.2).2 (g, u) (mem_users.2 ⟨hu, hi⟩)).2

theorem Der.def_chain {m : Mod} {n : Nat} {v : Var} {f i : Id} (h : Der m n v f i) (hn : (Mod.allDefs m).Nodup)
    {g : Id} {u : Item} (hu : (g, u) ∈ m.items) (hi : i ∈ defs u) :
    ∃ b ix, u = .inst (.chain i b ix) ∧ Der m n v f b := by
  cases h with
  | base h => exact absurd hi (global_not_def hn (mem_toMove.1 h).1 hu)
  | @chain b r g' ix hb hc =>
    obtain ⟨e, _⟩ := def_unique hn hu hc hi (by simp [defs])
    exact ⟨b, ix, e, hb⟩

theorem Der.not_param {m : Mod} {n : Nat} {v : Var} {f i : Id} (h : Der m n v f i) (hn : (Mod.allDefs m).Nodup)
    {g : Fn} (hg : g ∈ m.fns) : i ∉ g.params := by
  cases h with
  | base h => exact global_not_param hn (mem_toMove.1 h).1 hg
  | @chain b r g' ix hb hc => exact def_not_param hn hc (by simp [defs]) hg

theorem Der.mem_defs {m : Mod} {n : Nat} {v : Var} {f i : Id} (h : Der m n v f i) : i ∈ Mod.allDefs m := by
  cases h with
  | base h => exact List.mem_append_left _ (List.mem_map.2 ⟨v, (mem_toMove.1 h).1, rfl⟩)
  | @chain b r g' ix hb hc =>
    obtain ⟨f, hf, _, hi⟩ := mem_items.1 hc
    exact List.mem_append_right _ (List.mem_flatMap.2 ⟨f, hf, List.mem_append_right _
      (List.mem_flatMap.2 ⟨_, hi, by simp [defs]⟩)⟩)

end Verif.PrivLocal
