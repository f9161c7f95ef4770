import Verif.PrivLocal.Step
import Verif.PrivLocal.Types
/-!
# Properties of moving private variables into functions
-/
set_option linter.unusedSimpArgs false
set_option linter.unusedVariables false
set_option linter.unusedSectionVars false
namespace Verif.PrivLocal
open Spec

/-- The function has an instruction with this id as operand. -/
def Spec.Uses (m : Mod) (f i : Id) : Prop := ∃ u, (f, u) ∈ m.items ∧ i ∈ u.ops

/-- The address `i` is only read from and written to by the instruction, or by what the instruction hands it to. -/
inductive Spec.OnlyAccessed (m : Mod) : Id → Item → Prop where
  | load {i r p} : OnlyAccessed m i (.inst (.load r p))
  | texel {i r p} : OnlyAccessed m i (.inst (.texel r p))
  | store {i p x} : x ≠ i → OnlyAccessed m i (.inst (.store p x))
  | chain {i r b ix} : (∀ g u, (g, u) ∈ m.items → r ∈ u.ops → OnlyAccessed m r u) →
      OnlyAccessed m i (.inst (.chain r b ix))

variable {D : Type}

/-- If no function that gets a variable is entered twice, the runs of the module are the same, step by step:
what is emitted, the functions entered, the end, and the other variables of the module. -/
theorem runs_kept_partial (S : Sem D) (m : Mod) (n : Nat) (e : Id) (hv : Valid S m)
    (ho : ∀ v ∈ m.globals, v ∉ (m.run n).globals → ∀ f, Uses m f v.id → Once S m e f) (k : Nat) :
    (after S m e k = none ∧ after S (m.run n) e k = none) ∨
    ∃ s s', after S m e k = some s ∧ after S (m.run n) e k = some s' ∧ s'.emitted = s.emitted ∧
      s'.entered = s.entered ∧ (Finished s' ↔ Finished s) ∧
      ∀ v ∈ (m.run n).globals, s'.mem (.glob v.id) = s.mem (.glob v.id) := by
  by_cases ha : m.addresses = false
  · have ho' : ∀ v f, (v, f) ∈ m.toMove n → Once S m e f := by
      intro v f h
      obtain ⟨h1, h2, h3⟩ := mem_toMove.1 h
      have h4 := (local_iff _ _ _ _).1 h3
      refine ho v h1 ?_ f ?_
      · rw [run_globals n ha, List.mem_filter]
        rintro ⟨_, h⟩
        simp only [decide_eq_true_eq] at h
        exact h (List.mem_map.2 ⟨(v, f), by assumption, rfl⟩)
      · cases hu : m.users v.id with
        | nil => exact absurd hu h4.1
        | cons u us =>
          have := h4.2 u (by rw [hu]; exact List.mem_cons_self)
          have hm := mem_users.1 (show (u.1, u.2) ∈ m.users v.id by rw [hu]; exact List.mem_cons_self)
          exact ⟨u.2, this.2 ▸ hm.1, hm.2⟩
    have h := after_same hv ha ho' k
    generalize after S m e k = x at *
    generalize after S (m.run n) e k = y at *
    cases h with
    | none => exact .inl ⟨rfl, rfl⟩
    | @some s s' h =>
      refine .inr ⟨s, s', rfl, rfl, h.emitted, h.entered, ?_, ?_⟩
      · have := h.frames
        unfold Finished
        generalize s.frames = a at *
        generalize s'.frames = b at *
        cases this <;> simp
      · intro w hw
        rw [run_globals n ha, List.mem_filter] at hw
        refine (h.mem.clean _ ?_).symm
        rintro ⟨v, f, h0, e⟩
        have := hw.2
        simp only [decide_eq_true_eq] at this
        exact this (List.mem_map.2 ⟨(v, f), h0, e⟩)
  · have hr : m.run n = m := by
      rw [Mod.run, if_pos (by simpa using ha)]
    rw [hr]
    cases after S m e k with
    | none => exact .inl ⟨rfl, rfl⟩
    | some s => exact .inr ⟨s, s, rfl, rfl, rfl, rfl, Iff.rfl, fun _ _ => rfl⟩

/-! ## Functions that are not called -/

/-- Activations only hold instructions of the module, and the function `e` is entered only at the start. -/
structure Start (m : Mod) (e : Id) (s : State D) : Prop where
  code : ∀ f ∈ s.frames, ∀ i ∈ f.todo, (f.fn, Item.inst i) ∈ m.items
  entered : ∃ l, s.entered = e :: l ∧ e ∉ l

theorem start_enter {S : Sem D} {m : Mod} {f : Id} {args : List (Val D)} {dest : Id} {s s1 : State D}
    (h : enter S m f args dest s = some s1) (hc : ∀ f ∈ s.frames, ∀ i ∈ f.todo, (f.fn, Item.inst i) ∈ m.items) :
    (∀ f ∈ s1.frames, ∀ i ∈ f.todo, (f.fn, Item.inst i) ∈ m.items) ∧ s1.entered = s.entered ++ [f] := by
  unfold enter at h
  split at h
  · cases h
  · rename_i g hg
    split at h
    · cases h
    · rename_i b bs hb
      cases h
      refine ⟨?_, rfl⟩
      intro fr hfr i hi
      rcases List.mem_cons.1 hfr with e | hfr
      · rw [e] at hi ⊢
        rw [Mod.fn] at hg
        refine mem_items.2 ⟨g, List.mem_of_find?_eq_some hg, by simpa using List.find?_some hg,
          List.mem_append_right _ (List.mem_flatMap.2 ⟨b, by rw [hb]; exact List.mem_cons_self, ?_⟩)⟩
        simp only [Block.items, List.mem_append, List.mem_map]
        exact .inl (.inr ⟨i, hi, rfl⟩)
      · exact hc fr hfr i hi

theorem start_jump {S : Sem D} {m : Mod} {f g : Frame D} {l : Id} (h : jump S m f l = some g) :
    ∀ i ∈ g.todo, (g.fn, Item.inst i) ∈ m.items := by
  unfold jump at h
  split at h
  · cases h
  · rename_i b hb
    cases h
    intro i hi
    simp only at hi ⊢
    cases hg : Mod.fn m f.fn with
    | none => rw [hg] at hb; cases hb
    | some g =>
      rw [hg] at hb
      rw [Mod.fn] at hg
      refine mem_items.2 ⟨g, List.mem_of_find?_eq_some hg, by simpa using List.find?_some hg,
        List.mem_append_right _ (List.mem_flatMap.2 ⟨b, List.mem_of_find?_eq_some hb, ?_⟩)⟩
      simp only [Block.items, List.mem_append, List.mem_map]
      exact .inl (.inr ⟨i, hi, rfl⟩)

theorem start_step {S : Sem D} {m : Mod} {e : Id} (hcall : ∀ g r xs, (g, Item.inst (.call r e xs)) ∉ m.items)
    {s s1 : State D} (hs : Start m e s) (h : step S m s = some s1) : Start m e s1 := by
  obtain ⟨hc, l, he, hl⟩ := hs
  unfold step at h
  split at h
  · cases h
  rename_i f fs hfs
  rw [hfs] at hc
  have hf := hc f List.mem_cons_self
  have hr : ∀ g ∈ fs, ∀ i ∈ g.todo, (g.fn, Item.inst i) ∈ m.items := fun g hg => hc g (List.mem_cons_of_mem _ hg)
  have keep : ∀ {g : Frame D} {mem em}, (∀ i ∈ g.todo, (g.fn, Item.inst i) ∈ m.items) →
      Start m e { frames := g :: fs, mem := mem, emitted := em, entered := s.entered } := by
    intro g mem em hg
    refine ⟨?_, l, he, hl⟩
    intro g' hg' i hi
    rcases List.mem_cons.1 hg' with e | hg'
    · rw [e] at hi ⊢; exact hg i hi
    · exact hr g' hg' i hi
  split at h
  · rename_i i is ht
    rw [ht] at hf
    have hi := hf i List.mem_cons_self
    have his : ∀ j ∈ is, (f.fn, Item.inst j) ∈ m.items := fun j hj => hf j (List.mem_cons_of_mem _ hj)
    cases i with
    | call r g xs =>
      simp only [exec, Option.bind_eq_some_iff] at h
      obtain ⟨vs, _, h⟩ := h
      obtain ⟨h1, h2⟩ := start_enter h (by
        intro g' hg' i hi
        rcases List.mem_cons.1 hg' with e | hg'
        · rw [e] at hi ⊢; exact his i hi
        · exact hr g' hg' i hi)
      refine ⟨h1, l ++ [g], by rw [h2, he]; rfl, ?_⟩
      intro hin
      rcases List.mem_append.1 hin with hin | hin
      · exact hl hin
      · rw [List.mem_singleton] at hin
        rw [← hin] at hi
        exact hcall _ _ _ hi
    | store p x =>
      simp only [exec, Option.bind_eq_some_iff, Option.map_eq_some_iff] at h
      obtain ⟨_, _, _, _, rfl⟩ := h
      exact keep his
    | copyMem p x =>
      simp only [exec, Option.bind_eq_some_iff, Option.map_eq_some_iff] at h
      obtain ⟨_, _, _, _, rfl⟩ := h
      exact keep his
    | _ =>
      simp only [exec, Option.map_eq_some_iff] at h
      obtain ⟨_, _, rfl⟩ := h
      exact keep his
  · split at h
    · cases h
    · simp only [Option.map_eq_some_iff] at h
      obtain ⟨g, hg, rfl⟩ := h
      exact keep (start_jump hg)
    · simp only [Option.bind_eq_some_iff, Option.map_eq_some_iff] at h
      obtain ⟨_, _, g, hg, rfl⟩ := h
      exact keep (start_jump hg)
    · cases h
      cases fs with
      | nil => exact ⟨(fun g hg => nomatch hg), l, he, hl⟩
      | cons g gs => exact ⟨hr, l, he, hl⟩
    · simp only [Option.map_eq_some_iff] at h
      obtain ⟨v, _, rfl⟩ := h
      cases fs with
      | nil => exact ⟨(fun g hg => nomatch hg), l, he, hl⟩
      | cons g gs =>
        refine ⟨?_, l, he, hl⟩
        intro g' hg' i hi
        rcases List.mem_cons.1 hg' with e | hg'
        · rw [e] at hi ⊢; exact hr g List.mem_cons_self i hi
        · exact hr g' (List.mem_cons_of_mem _ hg') i hi

/-- An entry point that no function calls is entered once. -/
theorem uncalled_once (S : Sem D) (m : Mod) (e : Id) (hcall : ∀ g r xs, (g, Item.inst (.call r e xs)) ∉ m.items) :
    Once S m e e := by
  have h : ∀ k s, after S m e k = some s → Start m e s := by
    intro k
    induction k with
    | zero =>
      intro s hs
      obtain ⟨h1, h2⟩ := start_enter hs (by intro f hf; cases hf)
      exact ⟨h1, [], h2, by simp⟩
    | succ k ih =>
      intro s hs
      simp only [after, Option.bind_eq_some_iff] at hs
      obtain ⟨s0, h0, h1⟩ := hs
      exact start_step hcall (ih s0 h0) h1
  intro k s hs
  obtain ⟨_, l, he, hl⟩ := h k s hs
  rw [he, List.count_cons_self, List.count_eq_zero.2 hl]
  exact Nat.le_refl _

/-- If the variables that are moved are used only by the entry point, and that is not called, then the runs are the
same. -/
theorem entry_point_kept (S : Sem D) (m : Mod) (n : Nat) (e : Id) (hv : Valid S m)
    (hcall : ∀ g r xs, (g, Item.inst (.call r e xs)) ∉ m.items)
    (hu : ∀ v ∈ m.globals, v ∉ (m.run n).globals → ∀ f, Uses m f v.id → f = e) (k : Nat) :
    (after S m e k = none ∧ after S (m.run n) e k = none) ∨
    ∃ s s', after S m e k = some s ∧ after S (m.run n) e k = some s' ∧ s'.emitted = s.emitted ∧
      s'.entered = s.entered ∧ (Finished s' ↔ Finished s) ∧
      ∀ v ∈ (m.run n).globals, s'.mem (.glob v.id) = s.mem (.glob v.id) :=
  runs_kept_partial S m n e hv (fun v h1 h2 f hf => hu v h1 h2 f hf ▸ uncalled_once S m e hcall) k

/-! ## What is moved -/

theorem onlyAccessed_of_valid {m : Mod} {n : Nat} {u : Item} {i : Id} (h : m.valid n u i = true) :
    OnlyAccessed m i u := by
  induction n generalizing u i with
  | zero => simp [Mod.valid] at h
  | succ n ih =>
    cases u with
    | inst j =>
      cases j with
      | load r p => exact .load
      | texel r p => exact .texel
      | store p x => exact .store (by simpa [Mod.valid] using h)
      | chain r b ix =>
        simp only [Mod.valid, List.all_eq_true] at h
        exact .chain fun g u hu hr => ih (h (g, u) (mem_users.2 ⟨hu, hr⟩))
      | _ => simp [Mod.valid] at h
    | _ => simp [Mod.valid] at h

theorem valid_mono {m : Mod} {n : Nat} {u : Item} {i : Id} (h : m.valid n u i = true) {k : Nat} (hk : n ≤ k) :
    m.valid k u i = true := by
  induction n generalizing u i k with
  | zero => simp [Mod.valid] at h
  | succ n ih =>
    cases k with
    | zero => omega
    | succ k =>
      cases u with
      | inst j =>
        cases j with
        | chain r b ix =>
          simp only [Mod.valid, List.all_eq_true] at h ⊢
          exact fun u hu => ih (h u hu) (by omega)
        | _ => simpa [Mod.valid] using h
      | _ => simp [Mod.valid] at h

theorem valid_all {m : Mod} {i : Id} (l : List (Id × Item)) (h : ∀ u ∈ l, ∃ n, m.valid n u.2 i = true) :
    ∃ n, ∀ u ∈ l, m.valid n u.2 i = true := by
  induction l with
  | nil => exact ⟨0, by simp⟩
  | cons u l ih =>
    obtain ⟨a, ha⟩ := ih fun w hw => h w (List.mem_cons_of_mem _ hw)
    obtain ⟨b, hb⟩ := h u List.mem_cons_self
    refine ⟨max a b, ?_⟩
    intro w hw
    rcases List.mem_cons.1 hw with e | hw
    · rw [e]; exact valid_mono hb (Nat.le_max_right _ _)
    · exact valid_mono (ha w hw) (Nat.le_max_left _ _)

theorem valid_of_onlyAccessed {m : Mod} {u : Item} {i : Id} (h : OnlyAccessed m i u) : ∃ n, m.valid n u i = true := by
  induction h with
  | load => exact ⟨1, rfl⟩
  | texel => exact ⟨1, rfl⟩
  | store h => exact ⟨1, by simp [Mod.valid, h]⟩
  | @chain i r b ix _ ih =>
    obtain ⟨n, hn⟩ := valid_all (m := m) (i := r) (m.users r) fun u hu => ih u.1 u.2 (mem_users.1 hu).1 (mem_users.1 hu).2
    exact ⟨n + 1, by simp only [Mod.valid, List.all_eq_true]; exact hn⟩

/-- Exactly the private variables are moved that are used in one function, and whose addresses are only read from
and written to. They are then variables of that function, with the same initializer. -/
theorem moved_iff {S : Sem D} {m : Mod} (hv : Valid S m) {v : Var} (hg : v ∈ m.globals) :
    (∃ n, v ∉ (m.run n).globals) ↔ m.addresses = false ∧ v.cls = .priv ∧
      ∃ f, Uses m f v.id ∧ ∀ g u, (g, u) ∈ m.items → v.id ∈ u.ops → g = f ∧ OnlyAccessed m v.id u := by
  constructor
  · rintro ⟨n, hn⟩
    by_cases ha : m.addresses = false
    · rw [run_globals n ha, List.mem_filter] at hn
      have : v.id ∈ (m.toMove n).map (·.1.id) := by
        apply Classical.byContradiction
        intro h
        exact hn ⟨hg, by simpa using h⟩
      obtain ⟨⟨w, f⟩, hw, e⟩ := List.mem_map.1 this
      obtain ⟨h1, h2, h3⟩ := mem_toMove.1 hw
      have := global_unique hv.once h1 hg e
      subst this
      obtain ⟨h4, h5⟩ := (local_iff _ _ _ _).1 h3
      refine ⟨ha, h2, f, ?_, ?_⟩
      · cases hu : m.users w.id with
        | nil => exact absurd hu h4
        | cons u us =>
          have h6 := h5 u (by rw [hu]; exact List.mem_cons_self)
          have hm := mem_users.1 (show (u.1, u.2) ∈ m.users w.id by rw [hu]; exact List.mem_cons_self)
          exact ⟨u.2, h6.2 ▸ hm.1, hm.2⟩
      · intro g u hu hi
        have := h5 (g, u) (mem_users.2 ⟨hu, hi⟩)
        exact ⟨this.2, onlyAccessed_of_valid this.1⟩
    · rw [Mod.run, if_pos (by simpa using ha)] at hn
      exact absurd hg hn
  · rintro ⟨ha, hp, f, ⟨u, hu, hi⟩, hall⟩
    obtain ⟨n, hn⟩ := valid_all (m := m) (i := v.id) (m.users v.id) fun u hu =>
      valid_of_onlyAccessed (hall u.1 u.2 (mem_users.1 hu).1 (mem_users.1 hu).2).2
    refine ⟨n, ?_⟩
    rw [run_globals n ha, List.mem_filter]
    rintro ⟨_, h⟩
    simp only [decide_eq_true_eq] at h
    refine h (List.mem_map.2 ⟨(v, f), mem_toMove.2 ⟨hg, hp, (local_iff _ _ _ _).2 ⟨?_, ?_⟩⟩, rfl⟩)
    · intro he
      have := mem_users.2 ⟨hu, hi⟩
      rw [he] at this
      cases this
    · intro w hw
      exact ⟨hn w hw, (hall w.1 w.2 (mem_users.1 hw).1 (mem_users.1 hw).2).1⟩

theorem gone_iff {S : Sem D} {m : Mod} {n : Nat} (hv : Valid S m) (ha : m.addresses = false) {v : Var}
    (hg : v ∈ m.globals) : v ∉ (m.run n).globals ↔ ∃ f, (v, f) ∈ m.toMove n := by
  rw [run_globals n ha, List.mem_filter]
  constructor
  · intro h
    have : v.id ∈ (m.toMove n).map (·.1.id) := by
      apply Classical.byContradiction
      intro h'
      exact h ⟨hg, by simpa using h'⟩
    obtain ⟨⟨w, f⟩, hw, e⟩ := List.mem_map.1 this
    have := global_unique hv.once (mem_toMove.1 hw).1 hg e
    subst this
    exact ⟨f, hw⟩
  · rintro ⟨f, hf⟩ ⟨_, h⟩
    simp only [decide_eq_true_eq] at h
    exact h (List.mem_map.2 ⟨(v, f), hf, rfl⟩)

theorem added_nodup {m : Mod} {n : Nat} (hn : (Mod.allDefs m).Nodup) (f : Id) :
    ((added (m.toMove n) f).map Var.id).Nodup := by
  have h1 : (m.globals.map Var.id).Nodup := by
    rw [Mod.allDefs, List.nodup_append] at hn
    exact hn.1
  have h2 : ((m.toMove n).map (·.1.id)).Sublist (m.globals.map Var.id) := by
    rw [Mod.toMove]
    generalize m.globals = l
    induction l with
    | nil => exact List.Sublist.refl _
    | cons v l ih =>
      rw [List.filterMap_cons]
      split
      · exact ih.cons _
      · rename_i p hp
        rw [List.map_cons, List.map_cons]
        have : p.1 = v := by
          split at hp
          · cases hl : m.local n v.id with
            | none => rw [hl] at hp; cases hp
            | some g => rw [hl] at hp; cases hp; rfl
          · cases hp
        rw [this]
        exact ih.cons_cons _
  have h3 := h2.nodup h1
  rw [added, List.map_reverse, List.Perm.nodup_iff (List.reverse_perm _), List.map_map]
  exact (List.Sublist.map _ List.filter_sublist).nodup h3

/-- Functions keep their parameters, blocks and variables; in front of their variables stand those private
variables of the module that they use and that are no longer variables of the module. -/
theorem functions_kept (S : Sem D) (m : Mod) (n : Nat) (hv : Valid S m) :
    (m.run n).globals.Sublist m.globals ∧
    ∃ L : Id → List Var, (m.run n).fns = m.fns.map (fun g => { g with locals := L g.id ++ g.locals }) ∧
      ∀ f, ((L f).map Var.id).Nodup ∧
      ∀ w, w ∈ L f ↔ ∃ v ∈ m.globals, v ∉ (m.run n).globals ∧ Uses m f v.id ∧ w = { v with cls := .function } := by
  by_cases ha : m.addresses = false
  · refine ⟨by rw [run_globals n ha]; exact List.filter_sublist, added (m.toMove n), run_fns n ha, ?_⟩
    intro f
    refine ⟨added_nodup hv.once f, ?_⟩
    intro w
    rw [mem_added]
    constructor
    · rintro ⟨v, h0, e⟩
      obtain ⟨h1, h2, h3⟩ := mem_toMove.1 h0
      refine ⟨v, h1, (gone_iff hv ha h1).2 ⟨f, h0⟩, ?_, e⟩
      obtain ⟨h4, h5⟩ := (local_iff _ _ _ _).1 h3
      cases hu : m.users v.id with
      | nil => exact absurd hu h4
      | cons u us =>
        have h6 := h5 u (by rw [hu]; exact List.mem_cons_self)
        have hm := mem_users.1 (show (u.1, u.2) ∈ m.users v.id by rw [hu]; exact List.mem_cons_self)
        exact ⟨u.2, h6.2 ▸ hm.1, hm.2⟩
    · rintro ⟨v, h1, h2, ⟨u, hu, hi⟩, e⟩
      obtain ⟨g, h0⟩ := (gone_iff hv ha h1).1 h2
      have := base_fn h0 hu hi
      exact ⟨v, this ▸ h0, e⟩
  · have hr : m.run n = m := by rw [Mod.run, if_pos (by simpa using ha)]
    rw [hr]
    refine ⟨List.Sublist.refl _, fun _ => [], by simp, ?_⟩
    intro f
    refine ⟨by simp, ?_⟩
    intro w
    constructor
    · intro h; cases h
    · rintro ⟨v, h1, h2, _⟩; exact absurd h1 h2

/-- A variable that has been moved is used in no other function. -/
theorem uses_in_scope (S : Sem D) (m : Mod) (n : Nat) (hv : Valid S m) (v : Var) (h : v ∈ m.globals)
    (hm : v ∉ (m.run n).globals) (f g : Id) (hf : Uses m f v.id) (hg : Uses m g v.id) : f = g := by
  by_cases ha : m.addresses = false
  · obtain ⟨t, h0⟩ := (gone_iff hv ha h).1 hm
    obtain ⟨u, hu, hi⟩ := hf
    obtain ⟨w, hw, hj⟩ := hg
    rw [base_fn h0 hu hi, base_fn h0 hw hj]
  · rw [Mod.run, if_pos (by simpa using ha)] at hm
    exact absurd h hm

/-- Storage classes still fit together: every address of a moved variable is now of the class Function. -/
theorem types_kept (S : Sem D) (m : Mod) (n : Nat) (hv : Valid S m) (ht : Typed m) : Typed (m.run n) := by
  by_cases ha : m.addresses = false
  · exact typed_run n ha hv.once ht
  · rw [Mod.run, if_pos (by simpa using ha)]
    exact ht

/-- From version 1.4 on exactly the moved variables are taken from the interfaces; before, nothing is changed. -/
theorem interfaces (S : Sem D) (m : Mod) (n : Nat) (hv : Valid S m) :
    (m.run n).entries = if m.v14 then m.entries.map fun e => (e.1, e.2.filter fun i =>
      !(m.globals.any fun v => decide (v.id = i)) || (m.run n).globals.any fun v => decide (v.id = i)) else m.entries := by
  by_cases ha : m.addresses = false
  · have h : (m.run n).entries = if m.v14 then m.entries.map fun e => (e.1, e.2.filter fun i =>
        decide (i ∉ (m.toMove n).map (·.1.id))) else m.entries := by
      rw [Mod.run, if_neg (by simp [ha]), Mod.trim]
      obtain ⟨_, _, h3, h4, _⟩ := moves n (m.toMove n) m
      rw [h4]
      split
      · simp only [h3]
      · exact h3
    rw [h]
    split
    · apply List.map_congr_left
      intro e he
      congr 1
      apply List.filter_congr
      intro i hi
      rw [run_globals n ha, Bool.eq_iff_iff]
      simp only [decide_eq_true_eq, Bool.or_eq_true, Bool.not_eq_true', List.any_eq_true, List.any_eq_false,
        List.mem_filter]
      constructor
      · intro h
        by_cases hgl : ∃ v ∈ m.globals, v.id = i
        · obtain ⟨v, hv1, e⟩ := hgl
          exact .inr ⟨v, ⟨hv1, by rw [e]; exact h⟩, e⟩
        · exact .inl fun v hv1 e => hgl ⟨v, hv1, e⟩
      · rintro (h | ⟨v, ⟨_, h⟩, e⟩)
        · intro hin
          obtain ⟨p, hp, e⟩ := List.mem_map.1 hin
          exact h p.1 (mem_toMove.1 (show (p.1, p.2) ∈ _ from hp)).1 e
        · rw [← e]; exact h
    · rfl
  · have hr : m.run n = m := by rw [Mod.run, if_pos (by simpa using ha)]
    rw [hr]
    split
    · rw [List.map_congr_left (g := id)]
      · simp
      · intro e he
        simp only [id]
        congr 1
        rw [List.filter_eq_self]
        intro i hi
        cases m.globals.any fun v => decide (v.id = i) <;> rfl
    · rfl

/-! ## Two modules -/

/-- Data: numbers; a composite is a number too, and has one part. -/
def nat : Sem Nat where
  const i := if i = 100 then some 0 else if i = 101 then some 1 else none
  op _ xs := xs.foldl (· + ·) 0
  get d _ := d
  set _ _ d := d
  texel d := d
  truth d := d != 0
  junk _ := 7

/-- `main` calls `next` twice; `next` counts in the private variable 1. -/
def counter : Mod where
  addresses := false
  v14 := true
  globals := [⟨1, .priv, some 100⟩, ⟨2, .other 3, none⟩]
  fns := [⟨10, [], [], [⟨11, [], [.call 12 20 [], .call 13 20 [], .store 2 101], .ret none⟩]⟩,
    ⟨20, [], [], [⟨21, [], [.chain 22 1 [100], .load 23 22, .op 24 0 [23, 101], .store 22 24, .emit 24], .ret none⟩]⟩]
  entries := [(10, [1, 2])]
  cls i := if i = 1 ∨ i = 22 then some .priv else if i = 2 then some (.other 3) else none

theorem counter_valid : Valid nat counter := by
  refine ⟨by decide, by decide, by decide⟩

theorem counter_typed : Typed counter := by
  refine ⟨by decide, by decide, ?_, ?_, ?_⟩
  · intro f r b ix h
    simp [Mod.items, counter, Fn.items, Block.items] at h
    obtain ⟨_, rfl, rfl, rfl⟩ := h
    simp [counter]
  · intro f r b ix h
    simp [Mod.items, counter, Fn.items, Block.items] at h
  · intro f r x h
    simp [Mod.items, counter, Fn.items, Block.items] at h

/-- Nothing checks that the function is entered once: a module that counts to two counts to one twice. -/
theorem value_lost : ∃ (S : Sem Nat) (m : Mod) (n e k : Nat) (s s' : State Nat), Valid S m ∧ Typed m ∧
    e ∈ m.entries.map (·.1) ∧ (∀ g r xs, (g, Item.inst (.call r e xs)) ∉ m.items) ∧
    after S m e k = some s ∧ after S (m.run n) e k = some s' ∧ Finished s ∧ Finished s' ∧
    s.emitted = [1, 2] ∧ s'.emitted = [1, 1] := by
  have h1 : ((after nat counter 10 16).map fun s => (s.frames.length, s.emitted)) = some (0, [1, 2]) := by
    decide +kernel
  have h2 : ((after nat (counter.run 3) 10 16).map fun s => (s.frames.length, s.emitted)) = some (0, [1, 1]) := by
    decide +kernel
  rw [Option.map_eq_some_iff] at h1 h2
  obtain ⟨s, hs, e1⟩ := h1
  obtain ⟨s', hs', e2⟩ := h2
  simp only [Prod.mk.injEq, List.length_eq_zero_iff] at e1 e2
  refine ⟨nat, counter, 3, 10, 16, s, s', counter_valid, counter_typed, by decide, ?_, hs, hs', e1.1, e2.1,
    e1.2, e2.2⟩
  intro g r xs h
  simp [Mod.items, counter, Fn.items, Block.items] at h

/-- `main` counts in the private variable 1 and calls a function that emits; that function uses
the private variable 3. -/
def once : Mod where
  addresses := false
  v14 := true
  globals := [⟨1, .priv, some 100⟩, ⟨2, .other 3, none⟩, ⟨3, .priv, none⟩]
  fns := [⟨10, [], [], [⟨11, [], [.chain 22 1 [100], .load 23 22, .op 24 0 [23, 101], .store 22 24, .call 12 20 [24],
      .load 25 1, .call 13 20 [25], .store 2 25], .ret none⟩]⟩,
    ⟨20, [30], [], [⟨21, [], [.store 3 30, .emit 30], .ret none⟩]⟩]
  entries := [(10, [1, 2, 3])]
  cls i := if i = 1 ∨ i = 22 ∨ i = 3 then some .priv else if i = 2 then some (.other 3) else none

example : (once.run 3).globals = [⟨2, .other 3, none⟩] ∧ (once.run 3).entries = [(10, [2])] ∧
    (once.run 3).fns.map (fun f => f.locals) = [[⟨1, .function, some 100⟩], [⟨3, .function, none⟩]] ∧
    (once.run 3).cls 22 = some .function := by decide +kernel

/-- Variable 3 is not private here, so only variable 1 is moved: the hypotheses of `entry_point_kept` are met. -/
def main : Mod := { once with globals := [⟨1, .priv, some 100⟩, ⟨2, .other 3, none⟩, ⟨3, .other 3, none⟩] }

example : Valid nat main ∧ (∀ g r xs, (g, Item.inst (.call r 10 xs)) ∉ main.items) ∧
    (∀ v ∈ main.globals, v ∉ (main.run 3).globals → ∀ f, Uses main f v.id → f = 10) ∧
    (⟨1, .priv, some 100⟩ ∈ main.globals ∧ ⟨1, .priv, some 100⟩ ∉ (main.run 3).globals) ∧
    ((after nat (main.run 3) 10 15).map fun s => (s.frames.length, s.emitted)) = some (0, [1, 1]) := by
  refine ⟨⟨by decide, by decide, by decide⟩, ?_, ?_, by decide +kernel, by decide +kernel⟩
  · intro g r xs h
    simp [Mod.items, main, once, Fn.items, Block.items] at h
  · have hg : (main.run 3).globals = [⟨2, .other 3, none⟩, ⟨3, .other 3, none⟩] := by decide +kernel
    rw [hg]
    intro v h1 h2 f
    simp only [main, List.mem_cons, List.not_mem_nil, or_false] at h1
    rcases h1 with rfl | rfl | rfl
    · rintro ⟨u, hu, hi⟩
      have h : ∀ u ∈ main.items, 1 ∈ u.2.ops → u.1 = 10 := by decide +kernel
      exact h (f, u) hu hi
    · simp at h2
    · simp at h2

end Verif.PrivLocal
