import Verif.PrivLocal.Static
/-!
# Both modules step by step
-/
set_option linter.unusedSimpArgs false
set_option linter.unusedVariables false
set_option linter.unusedSectionVars false
namespace Verif.PrivLocal
open Spec

variable {D : Type} {S : Sem D} {m : Mod} {n : Nat}

/-- The cell is none of a moved variable. -/
def CleanCell (m : Mod) (n : Nat) : Cell → Prop
  | .glob x => ¬ Moved m n x
  | .loc _ x => ¬ Moved m n x

def Clean (m : Mod) (n : Nat) : Val D → Prop
  | .data _ => True
  | .ptr c _ => CleanCell m n c

def Derived (m : Mod) (n : Nat) (i : Id) : Prop := ∃ v f, Der m n v f i

/-- The same value, in an activation of `g` with the number `k`: `x` before, `x'` after the pass. -/
structure Same (m : Mod) (n : Nat) (g : Id) (k : Nat) (i : Id) (x x' : Option (Val D)) : Prop where
  plain : ¬ Derived m n i → x = x' ∧ ∀ y, x = some y → Clean m n y
  der : Derived m n i → (x = none ∧ x' = none) ∨
    ∃ v p, (v, g) ∈ m.toMove n ∧ x = some (.ptr (.glob v.id) p) ∧ x' = some (.ptr (.loc k v.id) p)

structure FrameRel (m : Mod) (n : Nat) (es : List Id) (f f' : Frame D) : Prop where
  fn : f'.fn = f.fn
  num : f'.num = f.num
  label : f'.label = f.label
  todo : f'.todo = f.todo
  dest : f'.dest = f.dest
  code : ∀ i ∈ f.todo, (f.fn, Item.inst i) ∈ m.items
  dest_plain : ¬ Derived m n f.dest
  place : es[f.num]? = some f.fn
  regs : ∀ i, Same m n f.fn f.num i (f.regs i) (f'.regs i)

inductive FramesRel (m : Mod) (n : Nat) (es : List Id) : List (Frame D) → List (Frame D) → Prop where
  | nil : FramesRel m n es [] []
  | cons {f f' fs fs'} : FrameRel m n es f f' → FramesRel m n es fs fs' → FramesRel m n es (f :: fs) (f' :: fs')

structure MemRel (S : Sem D) (m : Mod) (n : Nat) (es : List Id) (mem mem' : Cell → Option D) : Prop where
  clean : ∀ c, CleanCell m n c → mem c = mem' c
  before : ∀ v f, (v, f) ∈ m.toMove n → f ∉ es → mem (.glob v.id) = some (first S v)
  inside : ∀ v f, (v, f) ∈ m.toMove n → ∀ k : Nat, es[k]? = some f → mem (.glob v.id) = mem' (.loc k v.id)

structure StateRel (S : Sem D) (m : Mod) (n : Nat) (s s' : State D) : Prop where
  frames : FramesRel m n s.entered s.frames s'.frames
  mem : MemRel S m n s.entered s.mem s'.mem
  emitted : s'.emitted = s.emitted
  entered : s'.entered = s.entered

/-- No function with moved variables has been entered twice. -/
def Few (m : Mod) (n : Nat) (es : List Id) : Prop := ∀ v f, (v, f) ∈ m.toMove n → es.count f ≤ 1

inductive OptRel {α : Type} (R : α → α → Prop) : Option α → Option α → Prop where
  | none : OptRel R none none
  | some {a b} : R a b → OptRel R (some a) (some b)

theorem moved_unique (hn : (Mod.allDefs m).Nodup) {v w : Var} {f g : Id} (hv : (v, f) ∈ m.toMove n)
    (hw : (w, g) ∈ m.toMove n) (e : v.id = w.id) : v = w ∧ f = g := by
  have h1 := mem_toMove.1 hv
  have h2 := mem_toMove.1 hw
  have := global_unique hn h1.1 h2.1 e
  subst this
  have := h1.2.2.symm.trans h2.2.2
  exact ⟨rfl, Option.some.inj this⟩

theorem count_one {es : List Id} {f : Id} (h : es.count f ≤ 1) {j k : Nat} (hj : es[j]? = some f)
    (hk : es[k]? = some f) : j = k := by
  induction es generalizing j k with
  | nil => simp at hj
  | cons e es ih =>
    have none_of : ∀ i : Nat, es[i]? = some f → 0 < es.count f := by
      intro i hi
      exact List.count_pos_iff.2 (List.mem_of_getElem? hi)
    cases j with
    | zero =>
      cases k with
      | zero => rfl
      | succ k =>
        simp only [List.getElem?_cons_zero, Option.some.injEq] at hj
        simp only [List.getElem?_cons_succ] at hk
        have := none_of k hk
        rw [List.count_cons, hj] at h
        simp at h
        omega
    | succ j =>
      cases k with
      | zero =>
        simp only [List.getElem?_cons_zero, Option.some.injEq] at hk
        simp only [List.getElem?_cons_succ] at hj
        have := none_of j hj
        rw [List.count_cons, hk] at h
        simp at h
        omega
      | succ k =>
        simp only [List.getElem?_cons_succ] at hj hk
        have : es.count f ≤ 1 := by
          rw [List.count_cons] at h; omega
        rw [ih this hj hk]

theorem derived_of_moved {i : Id} (h : Moved m n i) : Derived m n i := by
  obtain ⟨v, f, h, e⟩ := h
  exact ⟨v, f, e ▸ Der.base h⟩

section
variable (hv : Valid S m) (ha : m.addresses = false)
include hv ha

theorem fn_mem {f : Id} {g : Fn} (h : Mod.fn m f = some g) : g ∈ m.fns ∧ g.id = f := by
  rw [Mod.fn] at h
  exact ⟨List.mem_of_find?_eq_some h, by simpa using List.find?_some h⟩

theorem local_item {f : Id} {g : Fn} (h : Mod.fn m f = some g) {w : Var} (hw : w ∈ g.locals) :
    (f, Item.var w) ∈ m.items := by
  obtain ⟨h1, h2⟩ := fn_mem hv ha h
  exact mem_items.2 ⟨g, h1, h2, List.mem_append_left _ (List.mem_map.2 ⟨w, hw, rfl⟩)⟩

theorem local_not_derived {f : Id} {g : Fn} (h : Mod.fn m f = some g) {w : Var} (hw : w ∈ g.locals) :
    ¬ Derived m n w.id := by
  rintro ⟨v, t, hd⟩
  obtain ⟨b, ix, e, _⟩ := hd.def_chain hv.once (local_item hv ha h hw) (by simp [defs])
  cases e

/-- An id that is used in the function stands for the same before and after. -/
theorem value_same {es : List Id} {f f' : Frame D} (hf : FrameRel m n es f f') {u : Item}
    (hu : (f.fn, u) ∈ m.items) {i : Id} (hi : i ∈ u.ops) :
    Same m n f.fn f.num i (value S m f i) (value S (m.run n) f' i) := by
  have hl : ∀ x, ((Mod.fn (m.run n) f'.fn).any fun g => g.locals.any fun v => decide (v.id = x)) = true ↔
      ((∃ v, (v, f.fn) ∈ m.toMove n ∧ v.id = x ∧ (Mod.fn m f.fn).isSome) ∨
        ((Mod.fn m f.fn).any fun g => g.locals.any fun v => decide (v.id = x)) = true) := by
    intro x
    rw [hf.fn, run_fn n ha]
    cases hg : Mod.fn m f.fn with
    | none => simp
    | some g =>
      simp only [Option.map_some, Option.any_some, List.any_append, Bool.or_eq_true, List.any_eq_true,
        decide_eq_true_eq, Option.isSome_some, and_true]
      constructor
      · rintro (⟨w, hw, e⟩ | h)
        · obtain ⟨v, hm, rfl⟩ := mem_added.1 hw
          exact .inl ⟨v, hm, e⟩
        · exact .inr h
      · rintro (⟨v, hm, e⟩ | h)
        · exact .inl ⟨_, mem_added.2 ⟨v, hm, rfl⟩, e⟩
        · exact .inr h
  have hgl : ∀ x, ((m.run n).globals.any fun v => decide (v.id = x)) = true ↔
      ((m.globals.any fun v => decide (v.id = x)) = true ∧ ¬ Moved m n x) := by
    intro x
    rw [run_globals n ha]
    simp only [List.any_eq_true, List.mem_filter, decide_eq_true_eq, List.mem_map, not_exists, not_and]
    constructor
    · rintro ⟨w, ⟨h1, h2⟩, e⟩
      refine ⟨⟨w, h1, e⟩, ?_⟩
      rintro ⟨v, g, hm, e'⟩
      exact h2 (v, g) hm (by rw [e, e'])
    · rintro ⟨⟨w, h1, e⟩, h2⟩
      refine ⟨w, ⟨h1, ?_⟩, e⟩
      rintro ⟨v, g⟩ hm e'
      exact h2 ⟨v, g, hm, by rw [← e, ← e']⟩
  have hsome : (Mod.fn m f.fn).isSome := by
    obtain ⟨g, hg, e, _⟩ := mem_items.1 hu
    rw [Mod.fn, List.find?_isSome]
    exact ⟨g, hg, by simp [e]⟩
  unfold value
  by_cases h1 : ((Mod.fn m f.fn).any fun g => g.locals.any fun v => decide (v.id = i)) = true
  · rw [if_pos h1, if_pos ((hl i).2 (.inr h1)), hf.num]
    cases hg : Mod.fn m f.fn with
    | none => rw [hg] at h1; simp at h1
    | some g =>
      rw [hg] at h1
      simp only [Option.any_some, List.any_eq_true, decide_eq_true_eq] at h1
      obtain ⟨w, hw, e⟩ := h1
      have hnd : ¬ Derived m n i := e ▸ local_not_derived hv ha hg hw
      refine ⟨fun _ => ⟨rfl, ?_⟩, fun h => absurd h hnd⟩
      intro y hy
      cases hy
      exact fun h => hnd (derived_of_moved h)
  · rw [if_neg h1]
    by_cases hm : Moved m n i
    · obtain ⟨v, t, hm, e⟩ := hm
      have ht : f.fn = t := base_fn hm hu (e ▸ hi)
      rw [← ht] at hm
      have hgm : (m.globals.any fun v => decide (v.id = i)) = true := by
        simp only [List.any_eq_true, decide_eq_true_eq]
        exact ⟨v, (mem_toMove.1 hm).1, e⟩
      rw [if_pos hgm, if_pos ((hl i).2 (.inl ⟨v, hm, e, hsome⟩)), hf.num]
      have hd : Derived m n i := ⟨v, f.fn, e ▸ Der.base hm⟩
      refine ⟨fun h => absurd hd h, fun _ => .inr ⟨v, [], hm, by rw [e], by rw [e]⟩⟩
    · have h2 : ¬ ((Mod.fn (m.run n) f'.fn).any fun g => g.locals.any fun v => decide (v.id = i)) = true := by
        rw [hl i]
        rintro (⟨v, hm', e, _⟩ | h)
        · exact hm ⟨v, f.fn, hm', e⟩
        · exact h1 h
      rw [if_neg h2]
      by_cases h3 : (m.globals.any fun v => decide (v.id = i)) = true
      · rw [if_pos h3, if_pos ((hgl i).2 ⟨h3, hm⟩)]
        simp only [List.any_eq_true, decide_eq_true_eq] at h3
        obtain ⟨w, hw, e⟩ := h3
        have hnd : ¬ Derived m n i := by
          rintro ⟨v, t, hd⟩
          cases hd with
          | base h => exact hm ⟨v, t, h, rfl⟩
          | @chain b r g ix hb hc => exact absurd (by simp [defs, e]) (global_not_def hv.once hw hc)
        refine ⟨fun _ => ⟨rfl, ?_⟩, fun h => absurd h hnd⟩
        intro y hy
        cases hy
        exact hm
      · rw [if_neg h3, if_neg (fun h => h3 ((hgl i).1 h).1)]
        cases hc : S.const i with
        | some d =>
          refine ⟨fun _ => ⟨rfl, ?_⟩, ?_⟩
          · intro y hy
            cases hy
            trivial
          · rintro ⟨v, t, hd⟩
            rw [hv.const i hd.mem_defs] at hc
            cases hc
        | none => exact hf.regs i

theorem datum_same {es : List Id} {f f' : Frame D} (hf : FrameRel m n es f f') {u : Item}
    (hu : (f.fn, u) ∈ m.items) {i : Id} (hi : i ∈ u.ops) : datum S (m.run n) f' i = datum S m f i := by
  have h := value_same hv ha hf hu hi
  unfold datum
  by_cases hd : Derived m n i
  · rcases h.der hd with ⟨h1, h2⟩ | ⟨v, p, _, h1, h2⟩ <;> rw [h1, h2] <;> rfl
  · rw [(h.plain hd).1]

theorem data_same {es : List Id} {f f' : Frame D} (hf : FrameRel m n es f f') {u : Item}
    (hu : (f.fn, u) ∈ m.items) {l : List Id} (hi : ∀ i ∈ l, i ∈ u.ops) :
    l.mapM (datum S (m.run n) f') = l.mapM (datum S m f) := by
  induction l with
  | nil => rfl
  | cons i l ih =>
    rw [List.mapM_cons, List.mapM_cons, datum_same hv ha hf hu (hi i List.mem_cons_self),
      ih fun j hj => hi j (List.mem_cons_of_mem _ hj)]

/-- An id that is not an address of a moved variable has the same value. -/
theorem value_plain {es : List Id} {f f' : Frame D} (hf : FrameRel m n es f f') {u : Item}
    (hu : (f.fn, u) ∈ m.items) {i : Id} (hi : i ∈ u.ops) (hb : ¬ Fine i u) :
    value S (m.run n) f' i = value S m f i ∧ ∀ y, value S m f i = some y → Clean m n y := by
  have hd : ¬ Derived m n i := fun ⟨v, t, hd⟩ => hb (hd.fine hu hi)
  have h := (value_same hv ha hf hu hi).plain hd
  exact ⟨h.1.symm, h.2⟩

/-- Pointers: the same, or those to the two places of a moved variable. -/
theorem pointer_same {es : List Id} {f f' : Frame D} (hf : FrameRel m n es f f') {u : Item}
    (hu : (f.fn, u) ∈ m.items) {i : Id} (hi : i ∈ u.ops) :
    (pointer S m f i = none ∧ pointer S (m.run n) f' i = none) ∨
    (∃ c p, CleanCell m n c ∧ pointer S m f i = some (c, p) ∧ pointer S (m.run n) f' i = some (c, p)) ∨
    (∃ v p, (v, f.fn) ∈ m.toMove n ∧ pointer S m f i = some (.glob v.id, p) ∧
      pointer S (m.run n) f' i = some (.loc f.num v.id, p)) := by
  have h := value_same hv ha hf hu hi
  unfold pointer
  by_cases hd : Derived m n i
  · rcases h.der hd with ⟨h1, h2⟩ | ⟨v, p, h0, h1, h2⟩
    · rw [h1, h2]; exact .inl ⟨rfl, rfl⟩
    · rw [h1, h2]; exact .inr (.inr ⟨v, p, h0, rfl, rfl⟩)
  · obtain ⟨h1, h2⟩ := h.plain hd
    rw [← h1]
    cases hx : value S m f i with
    | none => exact .inl ⟨rfl, rfl⟩
    | some y =>
      cases y with
      | data d => exact .inl ⟨rfl, rfl⟩
      | ptr c p => exact .inr (.inl ⟨c, p, h2 _ hx, rfl, rfl⟩)

theorem read_same {es : List Id} {f f' : Frame D} (hf : FrameRel m n es f f') {mem mem' : Cell → Option D}
    (hm : MemRel S m n es mem mem') {u : Item} (hu : (f.fn, u) ∈ m.items) {i : Id} (hi : i ∈ u.ops) :
    read S (m.run n) f' mem' i = read S m f mem i := by
  unfold Spec.read
  rcases pointer_same hv ha hf hu hi with ⟨h1, h2⟩ | ⟨c, p, hc, h1, h2⟩ | ⟨v, p, h0, h1, h2⟩
  · rw [h1, h2]; rfl
  · rw [h1, h2]
    simp only [Option.bind_some]
    rw [hm.clean c hc]
  · rw [h1, h2]
    simp only [Option.bind_some]
    rw [hm.inside v f.fn h0 f.num hf.place]

theorem put_same {es : List Id} (hfew : Few m n es) {f f' : Frame D} (hf : FrameRel m n es f f')
    {mem mem' : Cell → Option D} (hm : MemRel S m n es mem mem') {u : Item} (hu : (f.fn, u) ∈ m.items) {i : Id}
    (hi : i ∈ u.ops) (d : D) :
    OptRel (MemRel S m n es) (put S m f mem i d) (put S (m.run n) f' mem' i d) := by
  unfold put
  rcases pointer_same hv ha hf hu hi with ⟨h1, h2⟩ | ⟨c, p, hc, h1, h2⟩ | ⟨v, p, h0, h1, h2⟩
  · rw [h1, h2]; exact .none
  · rw [h1, h2]
    simp only [Option.bind_some]
    rw [← hm.clean c hc]
    cases ho : mem c with
    | none => exact .none
    | some o =>
      refine .some ⟨?_, ?_, ?_⟩
      · intro e he
        simp only [write]
        split
        · rfl
        · exact hm.clean e he
      · intro w g hw hg
        have : Cell.glob w.id ≠ c := by
          rintro rfl
          exact hc ⟨w, g, hw, rfl⟩
        simp only [write, if_neg this]
        exact hm.before w g hw hg
      · intro w g hw k hk
        have e1 : Cell.glob w.id ≠ c := by
          rintro rfl
          exact hc ⟨w, g, hw, rfl⟩
        have e2 : Cell.loc k w.id ≠ c := by
          rintro rfl
          exact hc ⟨w, g, hw, rfl⟩
        simp only [write, if_neg e1, if_neg e2]
        exact hm.inside w g hw k hk
  · rw [h1, h2]
    simp only [Option.bind_some]
    rw [← hm.inside v f.fn h0 f.num hf.place]
    cases ho : mem (.glob v.id) with
    | none => exact .none
    | some o =>
      refine .some ⟨?_, ?_, ?_⟩
      · intro e he
        have e1 : e ≠ .glob v.id := by
          rintro rfl
          exact he ⟨v, f.fn, h0, rfl⟩
        have e2 : e ≠ .loc f.num v.id := by
          rintro rfl
          exact he ⟨v, f.fn, h0, rfl⟩
        simp only [write, if_neg e1, if_neg e2]
        exact hm.clean e he
      · intro w g hw hg
        by_cases e : w.id = v.id
        · obtain ⟨_, e'⟩ := moved_unique hv.once hw h0 e
          exact absurd (List.mem_of_getElem? hf.place) (e' ▸ hg)
        · have : Cell.glob w.id ≠ .glob v.id := by simpa using e
          simp only [write, if_neg this]
          exact hm.before w g hw hg
      · intro w g hw k hk
        by_cases e : w.id = v.id
        · obtain ⟨_, e'⟩ := moved_unique hv.once hw h0 e
          rw [e'] at hk
          have := count_one (hfew v f.fn h0) hk hf.place
          simp only [write, e, this, if_true]
        · have e1 : Cell.glob w.id ≠ .glob v.id := by simpa using e
          have e2 : Cell.loc k w.id ≠ .loc f.num v.id := by
            intro h
            simp only [Cell.loc.injEq] at h
            exact e h.2
          simp only [write, if_neg e1, if_neg e2]
          exact hm.inside w g hw k hk

theorem setReg_plain {es : List Id} {f f' : Frame D} (hf : FrameRel m n es f f') {r : Id}
    (hr : ¬ Derived m n r) {x : Val D} (hx : Clean m n x) : FrameRel m n es (setReg f r x) (setReg f' r x) := by
  refine ⟨hf.fn, hf.num, hf.label, hf.todo, hf.dest, hf.code, hf.dest_plain, hf.place, ?_⟩
  intro i
  simp only [setReg]
  by_cases e : i = r
  · rw [if_pos e, if_pos e]
    refine ⟨fun _ => ⟨rfl, ?_⟩, fun h => absurd (e ▸ h) hr⟩
    intro y hy
    cases hy
    exact hx
  · rw [if_neg e, if_neg e]
    exact hf.regs i

theorem setReg_der {es : List Id} {f f' : Frame D} (hf : FrameRel m n es f f') {r : Id}
    (hr : Derived m n r) {v : Var} (h0 : (v, f.fn) ∈ m.toMove n) (p : List D) :
    FrameRel m n es (setReg f r (.ptr (.glob v.id) p)) (setReg f' r (.ptr (.loc f.num v.id) p)) := by
  refine ⟨hf.fn, hf.num, hf.label, hf.todo, hf.dest, hf.code, hf.dest_plain, hf.place, ?_⟩
  intro i
  simp only [setReg]
  by_cases e : i = r
  · rw [if_pos e, if_pos e]
    exact ⟨fun h => absurd (e ▸ hr) h, fun _ => .inr ⟨v, p, h0, rfl, rfl⟩⟩
  · rw [if_neg e, if_neg e]
    exact hf.regs i

/-- Only access chains define addresses of moved variables. -/
theorem not_derived {g : Id} {u : Item} (hu : (g, u) ∈ m.items) {r : Id} (hr : r ∈ defs u)
    (hc : ∀ b ix, u ≠ .inst (.chain r b ix)) : ¬ Derived m n r := by
  rintro ⟨v, t, hd⟩
  obtain ⟨b, ix, e, _⟩ := hd.def_chain hv.once hu hr
  exact hc b ix e

end

end Verif.PrivLocal
