import Verif.PrivLocal.Sim
/-!
# Steps
-/
set_option linter.unusedSimpArgs false
set_option linter.unusedVariables false
set_option linter.unusedSectionVars false
namespace Verif.PrivLocal
open Spec

variable {D : Type} {S : Sem D} {m : Mod} {n : Nat}

theorem FrameRel.extend {es : List Id} {f f' : Frame D} (h : FrameRel m n es f f') (e : Id) :
    FrameRel m n (es ++ [e]) f f' := by
  refine ⟨h.fn, h.num, h.label, h.todo, h.dest, h.code, h.dest_plain, ?_, h.regs⟩
  have hlt : f.num < es.length := by
    have := h.place
    exact (List.getElem?_eq_some_iff.1 this).1
  rw [List.getElem?_append_left hlt]
  exact h.place

theorem FramesRel.extend {es : List Id} {fs fs' : List (Frame D)} (h : FramesRel m n es fs fs') (e : Id) :
    FramesRel m n (es ++ [e]) fs fs' := by
  induction h with
  | nil => exact .nil
  | cons h1 _ ih => exact .cons (h1.extend e) ih

theorem lookup_mem {α : Type} {l : List (Id × α)} {i : Id} {x : α} (h : l.lookup i = some x) : (i, x) ∈ l := by
  induction l with
  | nil => cases h
  | cons p l ih =>
    rw [List.lookup_cons] at h
    split at h
    · rename_i e
      cases h
      have : i = p.1 := by simpa using e
      rw [this]
      exact List.mem_cons_self
    · exact List.mem_cons_of_mem _ (ih h)

theorem find_congr {α : Type} {p q : α → Bool} {l : List α} (h : ∀ a ∈ l, p a = q a) : l.find? p = l.find? q := by
  induction l with
  | nil => rfl
  | cons a l ih =>
    rw [List.find?_cons, List.find?_cons, h a List.mem_cons_self, ih fun b hb => h b (List.mem_cons_of_mem _ hb)]

theorem mapM_same {α : Type} {g g' : Id → Option α} {P : α → Prop} {l : List Id}
    (h : ∀ i ∈ l, g' i = g i ∧ ∀ y, g i = some y → P y) :
    l.mapM g' = l.mapM g ∧ ∀ ys, l.mapM g = some ys → ∀ y ∈ ys, P y := by
  induction l with
  | nil =>
    refine ⟨rfl, ?_⟩
    intro ys hys y hy
    simp at hys
    rw [hys] at hy
    cases hy
  | cons i l ih =>
    obtain ⟨h1, h2⟩ := ih fun j hj => h j (List.mem_cons_of_mem _ hj)
    obtain ⟨h3, h4⟩ := h i List.mem_cons_self
    refine ⟨by rw [List.mapM_cons, List.mapM_cons, h1, h3], ?_⟩
    intro ys hys y hy
    rw [List.mapM_cons] at hys
    cases hg : g i with
    | none => rw [hg] at hys; cases hys
    | some z =>
      rw [hg] at hys
      cases hl : l.mapM g with
      | none => rw [hl] at hys; cases hys
      | some zs =>
        rw [hl] at hys
        cases hys
        rcases List.mem_cons.1 hy with e | hy
        · rw [e]; exact h4 z hg
        · exact h2 zs hl y hy

section
variable (hv : Valid S m) (ha : m.addresses = false)
include hv ha

theorem enter_same {s s' : State D} (hs : StateRel S m n s s') {f : Id} {args : List (Val D)}
    (hargs : ∀ y ∈ args, Clean m n y) {dest : Id} (hd : ¬ Derived m n dest)
    (hfew : ∀ s1, enter S m f args dest s = some s1 → Few m n s1.entered) :
    OptRel (StateRel S m n) (enter S m f args dest s) (enter S (m.run n) f args dest s') := by
  unfold enter at hfew ⊢
  rw [run_fn n ha]
  cases hg : Mod.fn m f with
  | none => exact .none
  | some g =>
    rw [hg] at hfew
    simp only [Option.map_some] at hfew ⊢
    obtain ⟨hgm, hge⟩ := fn_mem hv ha hg
    cases hb : g.blocks with
    | nil => exact .none
    | cons b bs =>
      rw [hb] at hfew
      have hfew' := hfew _ rfl
      simp only at hfew' ⊢
      have hlen : s'.entered.length = s.entered.length := by rw [hs.entered]
      refine .some ⟨?_, ?_, hs.emitted, ?_⟩
      · refine .cons ⟨rfl, hlen, rfl, rfl, rfl, ?_, hd, ?_, ?_⟩ (hs.frames.extend f)
        · intro i hi
          refine mem_items.2 ⟨g, hgm, hge, List.mem_append_right _ (List.mem_flatMap.2 ⟨b, ?_, ?_⟩)⟩
          · rw [hb]; exact List.mem_cons_self
          · simp only [Block.items, List.mem_append, List.mem_map]
            exact .inl (.inr ⟨i, hi, rfl⟩)
        · simp
        · intro i
          refine ⟨fun _ => ⟨rfl, ?_⟩, ?_⟩
          · intro y hy
            have := List.of_mem_zip (lookup_mem hy)
            exact hargs y this.2
          · rintro ⟨v, t, hd⟩
            left
            have hno : (g.params.zip args).lookup i = none := by
              cases hl : (g.params.zip args).lookup i with
              | none => rfl
              | some y => exact absurd (List.of_mem_zip (lookup_mem hl)).1 (hd.not_param hv.once hgm)
            exact ⟨hno, hno⟩
      · have hnot : ∀ v, (v, f) ∈ m.toMove n → f ∉ s.entered := by
          intro v h0 hin
          have := hfew' v f h0
          rw [List.count_append] at this
          have h2 := List.count_pos_iff.2 hin
          simp at this
          omega
        refine ⟨?_, ?_, ?_⟩
        · intro c hc
          cases c with
          | glob x => exact hs.mem.clean _ hc
          | loc k x =>
            simp only [hlen]
            split
            · have hfind : (added (m.toMove n) f ++ g.locals).find? (fun v => decide (v.id = x)) =
                  g.locals.find? (fun v => decide (v.id = x)) := by
                rw [List.find?_append]
                have : (added (m.toMove n) f).find? (fun v => decide (v.id = x)) = none := by
                  rw [List.find?_eq_none]
                  intro w hw he
                  obtain ⟨v, hm, rfl⟩ := mem_added.1 hw
                  exact hc ⟨v, f, hm, by simpa using he⟩
                rw [this, Option.none_or]
              rw [hfind]
              split
              · rfl
              · exact hs.mem.clean _ hc
            · exact hs.mem.clean _ hc
        · intro v t h0 ht
          simp only [List.mem_append, List.mem_singleton, not_or] at ht
          exact hs.mem.before v t h0 ht.1
        · intro v t h0 k hk
          simp only [hlen]
          rcases Nat.lt_or_ge k s.entered.length with hlt | hge
          · rw [List.getElem?_append_left hlt] at hk
            rw [if_neg (by omega)]
            exact hs.mem.inside v t h0 k hk
          · rw [List.getElem?_append_right hge] at hk
            have hk0 : k - s.entered.length = 0 := by
              have := (List.getElem?_eq_some_iff.1 hk).1
              simp at this
              omega
            rw [hk0] at hk
            simp only [List.getElem?_cons_zero, Option.some.injEq] at hk
            have hkl : k = s.entered.length := by omega
            rw [if_pos hkl, hs.mem.before v t h0 (hk ▸ hnot v (hk ▸ h0))]
            cases hfd : (added (m.toMove n) f ++ g.locals).find? (fun w => decide (w.id = v.id)) with
            | none =>
              rw [List.find?_eq_none] at hfd
              exact absurd (by simp) (hfd { v with cls := .function }
                (List.mem_append_left _ (mem_added.2 ⟨v, hk ▸ h0, rfl⟩)))
            | some w =>
              have hwid : w.id = v.id := by simpa using List.find?_some hfd
              have hwm := List.mem_of_find?_eq_some hfd
              rcases List.mem_append.1 hwm with hw | hw
              · obtain ⟨v', hm', rfl⟩ := mem_added.1 hw
                obtain ⟨e, _⟩ := moved_unique hv.once hm' h0 hwid
                rw [e]
                rfl
              · exact absurd (hwid ▸ derived_of_moved ⟨v, t, h0, rfl⟩)
                  (local_not_derived (n := n) hv ha hg hw)
      · rw [hs.entered]

theorem exec_same {s s' : State D} (hs : StateRel S m n s s') (hfew0 : Few m n s.entered) {f f' : Frame D}
    (hf : FrameRel m n s.entered f f') {fs fs' : List (Frame D)} (hfs : FramesRel m n s.entered fs fs') {i : Inst}
    (hi : (f.fn, Item.inst i) ∈ m.items) (hfew : ∀ s1, exec S m s f fs i = some s1 → Few m n s1.entered) :
    OptRel (StateRel S m n) (exec S m s f fs i) (exec S (m.run n) s' f' fs' i) := by
  cases i with
  | load r p =>
    simp only [exec]
    rw [read_same hv ha hf hs.mem hi (i := p) (by simp [Item.ops])]
    cases Spec.read S m f s.mem p with
    | none => exact .none
    | some d =>
      exact .some ⟨.cons (setReg_plain hv ha hf (not_derived hv ha hi (by simp [defs]) (by simp)) trivial) hfs,
        hs.mem, hs.emitted, hs.entered⟩
  | texel r p =>
    simp only [exec]
    rw [read_same hv ha hf hs.mem hi (i := p) (by simp [Item.ops])]
    cases Spec.read S m f s.mem p with
    | none => exact .none
    | some d =>
      exact .some ⟨.cons (setReg_plain hv ha hf (not_derived hv ha hi (by simp [defs]) (by simp)) trivial) hfs,
        hs.mem, hs.emitted, hs.entered⟩
  | store p x =>
    simp only [exec]
    rw [datum_same hv ha hf hi (i := x) (by simp [Item.ops])]
    cases datum S m f x with
    | none => exact .none
    | some d =>
      simp only [Option.bind_some]
      have := put_same hv ha hfew0 hf hs.mem hi (i := p) (by simp [Item.ops]) d
      generalize put S m f s.mem p d = a at *
      generalize put S (m.run n) f' s'.mem p d = b at *
      cases this with
      | none => exact .none
      | some h => exact .some ⟨.cons hf hfs, h, hs.emitted, hs.entered⟩
  | chain r b ix =>
    simp only [exec, part]
    rw [data_same hv ha hf hi (l := ix) (by simp [Item.ops]; exact fun a h => .inr h)]
    have hbo : b ∈ (Item.inst (.chain r b ix)).ops := by simp [Item.ops]
    by_cases hbd : Derived m n b
    · have hrd : Derived m n r := by
        obtain ⟨v, t, hd⟩ := hbd
        exact ⟨v, t, hd.chain hi⟩
      rcases (value_same hv ha hf hi hbo).der hbd with ⟨h1, h2⟩ | ⟨v, p, h0, h1, h2⟩
      · simp only [pointer, h1, h2, Option.bind_none]
        exact .none
      · simp only [pointer, h1, h2, Option.bind_some, Val.getPtr]
        cases ix.mapM (datum S m f) with
        | none => exact .none
        | some ds =>
          exact .some ⟨.cons (setReg_der hv ha hf hrd h0 _) hfs, hs.mem, hs.emitted, hs.entered⟩
    · have hrd : ¬ Derived m n r := by
        rintro ⟨v, t, hd⟩
        obtain ⟨b', ix', e, hb'⟩ := hd.def_chain hv.once hi (by simp [defs])
        simp only [Item.inst.injEq, Inst.chain.injEq] at e
        exact hbd ⟨v, t, e.2.1 ▸ hb'⟩
      obtain ⟨h1, h2⟩ := (value_same hv ha hf hi hbo).plain hbd
      simp only [pointer, ← h1]
      cases hx : value S m f b with
      | none => exact .none
      | some y =>
        cases y with
        | data d => exact .none
        | ptr c p =>
          simp only [Option.bind_some, Val.getPtr]
          cases ix.mapM (datum S m f) with
          | none => exact .none
          | some ds =>
            exact .some ⟨.cons (setReg_plain hv ha hf hrd (x := .ptr c (p ++ ds))
              (show Clean m n (.ptr c p) from h2 _ hx)) hfs,
              hs.mem, hs.emitted, hs.entered⟩
  | inChain r b ix =>
    simp only [exec, part]
    rw [data_same hv ha hf hi (l := ix) (by simp [Item.ops]; exact fun a h => .inr h)]
    obtain ⟨h1, h2⟩ := value_plain hv ha hf hi (i := b) (by simp [Item.ops]) (by simp [Fine])
    simp only [pointer, h1]
    cases hx : value S m f b with
    | none => exact .none
    | some y =>
      cases y with
      | data d => exact .none
      | ptr c p =>
        simp only [Option.bind_some, Val.getPtr]
        cases ix.mapM (datum S m f) with
        | none => exact .none
        | some ds =>
          exact .some ⟨.cons (setReg_plain hv ha hf (not_derived hv ha hi (by simp [defs]) (by simp))
            (x := .ptr c (p ++ ds))
              (show Clean m n (.ptr c p) from h2 _ hx)) hfs, hs.mem, hs.emitted, hs.entered⟩
  | copy r x =>
    simp only [exec]
    obtain ⟨h1, h2⟩ := value_plain hv ha hf hi (i := x) (by simp [Item.ops]) (by simp [Fine])
    rw [h1]
    cases hx : value S m f x with
    | none => exact .none
    | some y =>
      exact .some ⟨.cons (setReg_plain hv ha hf (not_derived hv ha hi (by simp [defs]) (by simp)) (h2 _ hx)) hfs,
        hs.mem, hs.emitted, hs.entered⟩
  | copyMem p q =>
    simp only [exec]
    rw [read_same hv ha hf hs.mem hi (i := q) (by simp [Item.ops])]
    cases Spec.read S m f s.mem q with
    | none => exact .none
    | some d =>
      simp only [Option.bind_some]
      have := put_same hv ha hfew0 hf hs.mem hi (i := p) (by simp [Item.ops]) d
      generalize put S m f s.mem p d = a at *
      generalize put S (m.run n) f' s'.mem p d = b at *
      cases this with
      | none => exact .none
      | some h => exact .some ⟨.cons hf hfs, h, hs.emitted, hs.entered⟩
  | call r g xs =>
    simp only [exec] at hfew ⊢
    obtain ⟨h1, h2⟩ := mapM_same (l := xs) (g := value S m f) (g' := value S (m.run n) f') (P := Clean m n)
      fun i hx => value_plain hv ha hf hi (by simp [Item.ops, hx]) (by simp [Fine])
    rw [h1]
    cases hx : xs.mapM (value S m f) with
    | none => exact .none
    | some vs =>
      rw [hx] at hfew
      simp only [Option.bind_some] at hfew ⊢
      exact enter_same hv ha (s := { s with frames := f :: fs }) (s' := { s' with frames := f' :: fs' })
        ⟨.cons hf hfs, hs.mem, hs.emitted, hs.entered⟩ (h2 vs hx)
        (not_derived hv ha hi (r := r) (by simp [defs]) (by simp)) hfew
  | op r o xs =>
    simp only [exec]
    rw [data_same hv ha hf hi (l := xs) (by simp [Item.ops])]
    cases xs.mapM (datum S m f) with
    | none => exact .none
    | some ds =>
      exact .some ⟨.cons (setReg_plain hv ha hf (not_derived hv ha hi (by simp [defs]) (by simp)) trivial) hfs,
        hs.mem, hs.emitted, hs.entered⟩
  | emit x =>
    simp only [exec]
    rw [datum_same hv ha hf hi (i := x) (by simp [Item.ops])]
    cases datum S m f x with
    | none => exact .none
    | some d => exact .some ⟨.cons hf hfs, hs.mem, by simp [hs.emitted], hs.entered⟩

theorem block_same {es : List Id} {f f' : Frame D} (hf : FrameRel m n es f f') (l : Id) :
    ((Mod.fn (m.run n) f'.fn).bind fun g => Fn.block g l) = (Mod.fn m f.fn).bind fun g => Fn.block g l := by
  rw [hf.fn, run_fn n ha]
  cases Mod.fn m f.fn <;> rfl

theorem block_items {f l : Id} {b : Block} (h : ((Mod.fn m f).bind fun g => Fn.block g l) = some b) {u : Item}
    (hu : u ∈ b.items) : (f, u) ∈ m.items := by
  cases hg : Mod.fn m f with
  | none => rw [hg] at h; cases h
  | some g =>
    rw [hg] at h
    obtain ⟨h1, h2⟩ := fn_mem hv ha hg
    exact mem_items.2 ⟨g, h1, h2, List.mem_append_right _
      (List.mem_flatMap.2 ⟨b, List.mem_of_find?_eq_some h, hu⟩)⟩

theorem jump_same {es : List Id} {f f' : Frame D} (hf : FrameRel m n es f f') (l : Id) :
    OptRel (FrameRel m n es) (jump S m f l) (jump S (m.run n) f' l) := by
  unfold jump
  rw [block_same hv ha hf l]
  cases hb : (Mod.fn m f.fn).bind fun g => Fn.block g l with
  | none => exact .none
  | some b =>
    refine .some ⟨hf.fn, hf.num, rfl, rfl, hf.dest, ?_, hf.dest_plain, hf.place, ?_⟩
    · intro i hi
      refine block_items hv ha hb ?_
      simp only [Block.items, List.mem_append, List.mem_map]
      exact .inl (.inr ⟨i, hi, rfl⟩)
    · intro i
      simp only
      cases hp : b.phis.find? fun p => decide (p.r = i) with
      | none => exact hf.regs i
      | some p =>
        have hpi : p.r = i := by simpa using List.find?_some hp
        have hpm : (f.fn, Item.phi p) ∈ m.items := by
          refine block_items hv ha hb ?_
          simp only [Block.items, List.mem_append, List.mem_map]
          exact .inl (.inl ⟨p, List.mem_of_find?_eq_some hp, rfl⟩)
        have hnd : ¬ Derived m n i := not_derived hv ha hpm (by simp [defs, hpi]) (by simp)
        simp only [phiValue, hf.label]
        cases hargs : p.args.find? fun a => decide (a.2 = f.label) with
        | none =>
          refine ⟨fun _ => ⟨rfl, ?_⟩, fun h => absurd h hnd⟩
          intro y hy
          cases hy
        | some a =>
          obtain ⟨h1, h2⟩ := value_plain hv ha hf hpm (i := a.1)
            (List.mem_map.2 ⟨a, List.mem_of_find?_eq_some hargs, rfl⟩) (by simp [Fine])
          simp only [Option.bind_some]
          exact ⟨fun _ => ⟨h1.symm, h2⟩, fun h => absurd h hnd⟩

theorem step_same {s s' : State D} (hs : StateRel S m n s s') (hfew0 : Few m n s.entered)
    (hfew : ∀ s1, step S m s = some s1 → Few m n s1.entered) :
    OptRel (StateRel S m n) (step S m s) (step S (m.run n) s') := by
  obtain ⟨hfr, hm, he, hen⟩ := hs
  unfold step at hfew ⊢
  generalize hfs1 : s.frames = l1 at *
  generalize hfs2 : s'.frames = l2 at *
  cases hfr with
  | nil => exact .none
  | @cons f f' fs fs' hf hfs =>
    have hs : StateRel S m n s s' := ⟨by rw [hfs1, hfs2]; exact .cons hf hfs, hm, he, hen⟩
    simp only at hfew ⊢
    rw [hf.todo]
    cases ht : f.todo with
    | cons i is =>
      rw [ht] at hfew
      have hc := hf.code
      rw [ht] at hc
      refine exec_same hv ha hs hfew0 (f := { f with todo := is }) (f' := { f' with todo := is }) ?_ hfs
        (hc i List.mem_cons_self) hfew
      exact ⟨hf.fn, hf.num, hf.label, rfl, hf.dest, fun j hj => hc j (List.mem_cons_of_mem _ hj),
        hf.dest_plain, hf.place, hf.regs⟩
    | nil =>
      simp only
      rw [hf.label, block_same hv ha hf f.label]
      cases hb : (Mod.fn m f.fn).bind fun g => Fn.block g f.label with
      | none => exact .none
      | some b =>
        have hti : (f.fn, Item.term b.term) ∈ m.items := block_items hv ha hb (by simp [Block.items])
        simp only [Option.map_some]
        cases hterm : b.term with
        | br l =>
          simp only
          have := jump_same hv ha hf l
          generalize jump S m f l = x at *
          generalize jump S (m.run n) f' l = y at *
          cases this with
          | none => exact .none
          | some h => exact .some ⟨.cons h hfs, hm, he, hen⟩
        | cond x l k =>
          simp only
          rw [hterm] at hti
          rw [datum_same hv ha hf hti (i := x) (by simp [Item.ops])]
          cases datum S m f x with
          | none => exact .none
          | some d =>
            simp only [Option.bind_some]
            have := jump_same hv ha hf (if S.truth d then l else k)
            generalize jump S m f (if S.truth d then l else k) = x at *
            generalize jump S (m.run n) f' (if S.truth d then l else k) = y at *
            cases this with
            | none => exact .none
            | some h => exact .some ⟨.cons h hfs, hm, he, hen⟩
        | ret x =>
          cases x with
          | none =>
            simp only
            cases hfs with
            | nil => exact .some ⟨.nil, hm, he, hen⟩
            | cons h1 h2 => exact .some ⟨.cons h1 h2, hm, he, hen⟩
          | some x =>
            simp only
            rw [hterm] at hti
            obtain ⟨h1, h2⟩ := value_plain hv ha hf hti (i := x) (by simp [Item.ops]) (by simp [Fine])
            rw [h1]
            cases hx : value S m f x with
            | none => exact .none
            | some y =>
              simp only [Option.map_some]
              rw [hf.dest]
              cases hfs with
              | nil => exact .some ⟨.nil, hm, he, hen⟩
              | cons h3 h4 =>
                exact .some ⟨.cons (setReg_plain hv ha h3 hf.dest_plain (h2 _ hx)) h4, hm, he, hen⟩

theorem initial_same : StateRel S m n (initial S m) (initial S (m.run n)) := by
  refine ⟨.nil, ⟨?_, ?_, ?_⟩, rfl, rfl⟩
  · intro c hc
    cases c with
    | loc k x => rfl
    | glob x =>
      simp only [initial]
      rw [run_globals n ha, List.find?_filter]
      congr 1
      apply find_congr
      intro w hw
      by_cases e : w.id = x
      · have : w.id ∉ (m.toMove n).map (·.1.id) := by
          intro h
          obtain ⟨p, hp, e'⟩ := List.mem_map.1 h
          exact hc ⟨p.1, p.2, hp, by rw [← e, ← e']⟩
        simp [e, this]
        rw [← e]
        simpa using this
      · simp [e]
  · intro v f h _
    have hvm := (mem_toMove.1 h).1
    simp only [initial]
    cases hw : m.globals.find? fun w => decide (w.id = v.id) with
    | none =>
      rw [List.find?_eq_none] at hw
      exact absurd (by simp) (hw v hvm)
    | some w =>
      have : w = v := global_unique hv.once (List.mem_of_find?_eq_some hw) hvm (by simpa using List.find?_some hw)
      rw [this]
      rfl
  · intro v f h k hk
    simp [initial] at hk

end

/-- Both runs, step by step. -/
theorem after_same (hv : Valid S m) (ha : m.addresses = false) {e : Id}
    (ho : ∀ v f, (v, f) ∈ m.toMove n → Once S m e f) (k : Nat) :
    OptRel (StateRel S m n) (after S m e k) (after S (m.run n) e k) := by
  have hfew : ∀ k s, after S m e k = some s → Few m n s.entered := fun k s h v f h0 => ho v f h0 k s h
  induction k with
  | zero =>
    exact enter_same hv ha (initial_same hv ha) (fun _ h => by cases h)
      (fun ⟨_, _, h⟩ => hv.zero h.mem_defs) fun s1 h => hfew 0 s1 h
  | succ k ih =>
    simp only [after]
    have h0 := hfew k
    have h1 := hfew (k + 1)
    simp only [after] at h1
    generalize after S m e k = x at *
    generalize after S (m.run n) e k = y at *
    cases ih with
    | none => exact .none
    | some h => exact step_same hv ha h (h0 _ rfl) fun s1 hs1 => h1 s1 hs1

end Verif.PrivLocal
