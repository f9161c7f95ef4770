import Verif.Loader.EmitMod

/-! # Streams without line and scope information -/
set_option linter.unusedSimpArgs false
set_option linter.unusedVariables false
namespace Verif.Loader
open Verif.StringLit (Word)
open Spec (Rank Info Key Eff key norm carriesDebug scopeOf Ctx)

/-- A property of all the instructions the loader has. -/
structure AllQ (Q : Instr → Prop) (s : LState) : Prop where
  glob : ∀ p ∈ globalSegs s.m, ∀ i ∈ p.2, Q i
  geps : ∀ i ∈ s.m.graphEntryPoints, Q i
  fns : ∀ f ∈ s.m.fns, ∀ i ∈ f.instrs, Q i
  fn : ∀ f, s.fn = some f → ∀ i ∈ [f.defn] ++ f.params ++ f.header ++ f.blocks.flatten, Q i
  blk : ∀ b, s.blk = some b → ∀ i ∈ b, Q i
  graphs : ∀ g ∈ s.m.graphs, ∀ i ∈ g.instrs, Q i
  gr : ∀ g, s.gr = some g → ∀ i ∈ [g.defn] ++ g.inputs ++ g.insts ++ g.outputs, Q i

theorem file_all {Q : Instr → Prop} {s s' : LState} {i : Instr} (hq : AllQ Q s) (hi : ∀ sc, Q (addScope i sc))
    (h : file s i = some s') : AllQ Q s' := by
  have hi0 : Q i := by have := hi noScope; rwa [addScope_noScope] at this
  unfold file at h
  split at h
  · split at h
    · cases h
    · cases h
      refine ⟨hq.glob, hq.geps, hq.fns, ?_, hq.blk, hq.graphs, hq.gr⟩
      intro f hf j hj
      cases hf
      simp at hj; subst hj; exact hi0
  · split at h
    · rename_i f hfn hblk
      cases h
      refine ⟨hq.glob, hq.geps, ?_, by simp, hq.blk, hq.graphs, hq.gr⟩
      intro f' hf' j hj
      simp only [List.mem_append, List.mem_singleton] at hf'
      rcases hf' with hf' | rfl
      · exact hq.fns f' hf' j hj
      · simp only [Fn.instrs, List.append_nil] at hj
        rcases List.mem_append.1 hj with hj | hj
        · exact hq.fn f hfn j hj
        · simp at hj; subst hj; exact hi0
    · cases h
  · split at h
    · cases h
      refine ⟨hq.glob, hq.geps, hq.fns, hq.fn, ?_, hq.graphs, hq.gr⟩
      intro b hb j hj
      cases hb
      simp at hj; subst hj; exact hi0
    · cases h
  · split at h
    · rename_i f b hfn hblk
      cases h
      refine ⟨hq.glob, hq.geps, hq.fns, ?_, by simp, hq.graphs, hq.gr⟩
      intro f' hf' j hj
      cases hf'
      have h1 := hq.fn f hfn
      have h2 := hq.blk b hblk
      simp only [List.mem_append, List.flatten_append, List.flatten_cons, List.flatten_nil, List.mem_singleton,
        List.append_nil] at hj h1
      rcases hj with hj | hj | hj | rfl
      · exact h1 j (.inl hj)
      · exact h1 j (.inr hj)
      · exact h2 j hj
      · exact hi _
    · cases h
  · split at h
    · cases h
    · cases h
      refine ⟨hq.glob, hq.geps, hq.fns, hq.fn, hq.blk, hq.graphs, ?_⟩
      intro f hf j hj
      cases hf
      simp at hj; subst hj; exact hi0
  · split at h
    · rename_i g hgr
      cases h
      refine ⟨hq.glob, hq.geps, hq.fns, hq.fn, hq.blk, ?_, by simp⟩
      intro f' hf' j hj
      simp only [List.mem_append, List.mem_singleton] at hf'
      rcases hf' with hf' | rfl
      · exact hq.graphs f' hf' j hj
      · simp only [Graph.instrs, List.append_nil] at hj
        rcases List.mem_append.1 hj with hj | hj
        · exact hq.gr g hgr j hj
        · simp at hj; subst hj; exact hi0
    · cases h
  · cases h
    refine ⟨?_, hq.geps, hq.fns, hq.fn, hq.blk, hq.graphs, hq.gr⟩
    refine globalSegs_all ?_
    intro j hj
    have : j = i ∨ ∃ q ∈ globalSegs s.m, j ∈ q.2 := by
      rw [globalSegs_ex] at hj ⊢
      simp at hj ⊢
      grind
    rcases this with rfl | ⟨q, hq', hj⟩
    · exact hi0
    · exact hq.glob q hq' j hj
  · split at h
    · rename_i g hgr
      simp only [Option.map_eq_some_iff] at h
      obtain ⟨g', h, rfl⟩ := h
      refine ⟨hq.glob, hq.geps, hq.fns, hq.fn, hq.blk, hq.graphs, ?_⟩
      intro g'' hg'' j hj
      cases hg''
      rcases (addInGraph_mem h).2 j hj with rfl | hj
      · exact hi0
      · exact hq.gr g hgr j hj
    · split at h
      · rename_i f hfn
        unfold addInFn at h
        simp only at h
        generalize hi' : addScope i (if i.inst.op = .merge then noScope else s.scope) = i' at h
        have hqi : Q i' := by rw [← hi']; exact hi _
        split at h
        · rename_i b hwh hb'
          have hb : s.blk = some b := hb'
          cases h
          refine ⟨hq.glob, hq.geps, hq.fns, hq.fn, ?_, hq.graphs, hq.gr⟩
          intro b' hb'' j hj
          cases hb''
          simp only [List.mem_append, List.mem_singleton] at hj
          rcases hj with hj | rfl
          · exact hq.blk b hb j hj
          · exact hqi
        · cases h
          refine ⟨hq.glob, hq.geps, hq.fns, ?_, hq.blk, hq.graphs, hq.gr⟩
          intro f' hf' j hj
          cases hf'
          have h1 := hq.fn f hfn
          simp only [List.mem_append, List.mem_singleton] at hj h1
          rcases hj with (hj | hj | rfl) | hj
          · exact h1 j (.inl (.inl hj))
          · exact h1 j (.inl (.inr hj))
          · exact hqi
          · exact h1 j (.inr hj)
        · cases h
          refine ⟨hq.glob, hq.geps, hq.fns, ?_, hq.blk, hq.graphs, hq.gr⟩
          intro f' hf' j hj
          cases hf'
          have h1 := hq.fn f hfn
          simp only [List.mem_append, List.mem_singleton] at hj h1
          rcases hj with ((hj | hj | rfl) | hj) | hj
          · exact h1 j (.inl (.inl (.inl hj)))
          · exact h1 j (.inl (.inl (.inr hj)))
          · exact hqi
          · exact h1 j (.inl (.inr hj))
          · exact h1 j (.inr hj)
        · cases h
          exact ⟨hq.glob, hq.geps, hq.fns, hq.fn, hq.blk, hq.graphs, hq.gr⟩
        · cases h
      · simp only [Option.map_eq_some_iff] at h
        obtain ⟨m', h, rfl⟩ := h
        have ha := addGlobal_added h
        refine ⟨?_, ?_, ?_, hq.fn, hq.blk, ?_, hq.gr⟩
        · intro p hp j hj
          rcases ha.glob p hp j hj with rfl | ⟨q, hq', hj⟩
          · exact hi0
          · exact hq.glob q hq' j hj
        · intro j hj
          rcases ha.geps j hj with rfl | hj
          · exact hi0
          · exact hq.geps j hj
        · intro f hf j hj
          obtain ⟨f0, h0, h1, h2, h3⟩ := ha.fns f hf
          have hqf := hq.fns f0 h0
          simp only [Fn.instrs, List.mem_append] at hj hqf
          rw [h1, h2] at hj
          rcases hj with hj | hj
          · exact hqf j (.inl hj)
          · rcases h3 j hj with rfl | hj
            · exact hi0
            · exact hqf j (.inr hj)
        · intro g hg j hj
          obtain ⟨g0, h0, h1⟩ := ha.graphs g hg
          rcases h1 j hj with rfl | hj
          · exact hi0
          · exact hq.graphs g0 h0 j hj

theorem addInFn_same {s s' : LState} {f : OpenFn} {i : Instr} (h : addInFn s f i = some s') :
    s'.lines = s.lines ∧ s'.lastLine = s.lastLine ∧ s'.bound = s.bound := by
  unfold addInFn at h
  simp only at h
  generalize addScope i (if i.inst.op = .merge then noScope else s.scope) = i' at h
  split at h
  · cases h; exact ⟨rfl, rfl, rfl⟩
  · cases h; exact ⟨rfl, rfl, rfl⟩
  · cases h; exact ⟨rfl, rfl, rfl⟩
  · cases h; exact ⟨rfl, rfl, rfl⟩
  · cases h

theorem addAll_exact : ∀ (xs : List PInst) {s s' : LState}, (∀ x ∈ xs, carriesDebug x = false) → s.lines = [] →
    s.lastLine = none → AllQ (fun i => i.lines = []) s → addAll s xs = some s' →
    AllQ (fun i => i.lines = []) s' ∧ s'.lines = [] ∧ s'.bound = s.bound
  | [], s, s', _, h1, _, h3, h => by cases h; exact ⟨h3, h1, rfl⟩
  | x :: xs, s, s', hx, h1, h2, h3, h => by
    simp only [addAll] at h
    cases ha : addInstruction s x with
    | none => rw [ha] at h; cases h
    | some s1 =>
      rw [ha] at h
      simp only at h
      have hd := hx x (by simp)
      simp only [carriesDebug, Bool.or_eq_false_iff] at hd
      unfold addInstruction at ha
      have hat : attach s x = (⟨x, [], noScope⟩, s) := by simp [attach, h1, h2]
      simp only [hd.1.1, hd.1.2, hd.2, Bool.false_eq_true, if_false, hat] at ha
      have hq := file_all h3 (i := ⟨x, [], noScope⟩) (by
        intro sc; unfold addScope; split <;> simp [Instr.setScope]) ha
      have hsame : s1.lines = [] ∧ s1.lastLine = none ∧ s1.bound = s.bound := by
        clear hq h
        unfold file at ha
        split at ha
        all_goals (repeat' (split at ha))
        all_goals first
          | (rw [Option.map_eq_some_iff] at ha; obtain ⟨_, _, rfl⟩ := ha; exact ⟨h1, h2, rfl⟩)
          | (cases ha; exact ⟨h1, h2, rfl⟩)
          | (cases ha; exact ⟨rfl, rfl, rfl⟩)
          | (cases ha; done)
          | (obtain ⟨k1, k2, k3⟩ := addInFn_same ha; exact ⟨by rw [k1]; exact h1, by rw [k2]; exact h2, k3⟩)
      have := addAll_exact xs (fun y hy => hx y (by simp [hy])) hsame.1 hsame.2.1 hq h
      exact ⟨this.1, this.2.1, by rw [this.2.2, hsame.2.2]⟩

theorem AllQ.content {Q : Instr → Prop} {s : LState} (h : AllQ Q s) (hf : s.fn = none) :
    ∀ i ∈ (endModule s).content, Q i := by
  intro i hi
  rw [endModule_closed hf] at hi
  have hb : (Mod.beforeGraphs { s.m with trailing := s.lines }) =
      (globalSegs s.m).flatMap (·.2) ++ s.m.fns.flatMap Fn.instrs ++ s.m.graphEntryPoints := by
    simp [globalSegs, Mod.beforeGraphs]
  unfold Mod.content at hi
  rw [hb] at hi
  simp only [Mod.inGraphs, List.mem_append, List.mem_flatMap] at hi
  rcases hi with ((⟨p, hp, hi⟩ | ⟨f, hf, hi⟩) | hi) | ⟨g, hg, hi⟩
  · exact h.glob p hp i hi
  · exact h.fns f hf i hi
  · exact h.geps i hi
  · exact h.graphs g hg i hi

/-- Without lines and scopes `write_inst` writes the instruction or nothing. -/
theorem writeAll_plain (c : Cfg) : ∀ (l : List Instr) (e : E),
    (∀ i ∈ l, carriesDebug i.inst = false ∧ i.lines = [] ∧ i.scope = noScope) → e.line = none → e.scope = noScope →
    ∃ e', writeAll c e (l.map .inst) = some ((writtenI c e.seen l).map (·.inst), e') ∧ e'.bound = e.bound
  | [], e, _, _, _ => ⟨e, rfl, rfl⟩
  | i :: l, e, h, h1, h2 => by
    obtain ⟨hd, hl, hs⟩ := h i (by simp)
    have hd' := hd
    simp only [carriesDebug, PInst.isLineInst, Bool.or_eq_false_iff] at hd'
    have hw : ∃ e', writeInst c e (.inst i) = some (if keeps c e.seen i.inst then [i.inst] else [], e') ∧
        e'.seen = seen' c e.seen i.inst ∧ e'.line = none ∧ e'.scope = noScope ∧ e'.bound = e.bound := by
      unfold writeInst
      cases hdup : isDup c e (Item.inst i).x with
      | true =>
        simp only [if_true]
        have hk : keeps c e.seen i.inst = false := by
          simp only [isDup, Item.x] at hdup
          unfold keeps
          rw [Bool.and_eq_false_iff, Bool.not_eq_false']
          exact .inl hdup
        refine ⟨e, by rw [hk]; rfl, ?_, h1, h2, rfl⟩
        simp only [isDup, Item.x, Bool.and_eq_true] at hdup
        unfold seen'
        rw [if_neg]
        intro h
        exact h.2.2 hdup.2
      | false =>
        have hseen : (addSeen c e (Item.inst i).x).seen = seen' c e.seen i.inst := by
          unfold addSeen seen' Item.x
          by_cases h : c.filter = true ∧ i.inst.op = .annotation true
          · have : ¬ e.seen.contains i.inst.words = true := by
              intro hc
              have : isDup c e i.inst = true := by unfold isDup; rw [hc]; simp [h.1, h.2]
              rw [show (Item.inst i).x = i.inst from rfl] at hdup
              rw [hdup] at this; cases this
            rw [if_pos h, if_pos ⟨h.1, h.2, this⟩]
          · rw [if_neg h, if_neg (fun hh => h ⟨hh.1, hh.2.1⟩)]
        obtain ⟨e1, he1⟩ : ∃ e1, e1 = addSeen c e (Item.inst i).x := ⟨_, rfl⟩
        have g1 : e1.line = none := by subst he1; unfold addSeen; split <;> exact h1
        have g3 : e1.scope = noScope := by subst he1; unfold addSeen; split <;> exact h2
        have g4 : e1.bound = e.bound := by subst he1; unfold addSeen; split <;> rfl
        rw [← he1] at hseen
        have hcond : (e1.merge && (Item.inst i).x.isLineInst) = false := by
          simp [Item.x, PInst.isLineInst, hd'.1.1.1, hd'.1.1.2]
        have hls : lineStage c e1 (.inst i) = some (some ([], e1)) := by unfold lineStage; rw [g1]
        simp only [Bool.false_eq_true, if_false, ← he1, hcond, hls]
        rw [show (Item.inst i).x = i.inst from rfl]
        have hfin : ∀ e : E, (finishStage e i.inst).seen = e.seen ∧ ((finishStage e i.inst).line = e.line ∨ (finishStage e i.inst).line = none) ∧
            (finishStage e i.inst).scope = e.scope ∧ (finishStage e i.inst).bound = e.bound := by
          intro e
          simp only [finishStage, hd'.1.1.1, hd'.1.1.2, Bool.false_eq_true, or_false, if_false]
          split
          · simp
          · split <;> simp
        by_cases hnop : c.skipNop = true ∧ i.inst.op = .nop
        · have hk : keeps c e.seen i.inst = false := by simp [keeps, hnop]
          simp only [writeStage, Item.x, hnop, and_self, if_true, hk, Bool.false_eq_true, if_false, List.append_nil]
          obtain ⟨f1, f2, f3, f4⟩ := hfin { e1 with region := newRegion e1.region i.inst }
          refine ⟨_, rfl, by rw [f1]; exact hseen, ?_, by rw [f3]; exact g3, by rw [f4]; exact g4⟩
          rcases f2 with f2 | f2
          · rw [f2]; exact g1
          · exact f2
        · have hk : keeps c e.seen i.inst = true := by
            have h1 : (c.filter && decide (i.inst.op = .annotation true) && e.seen.contains i.inst.words) = false := hdup
            simp only [keeps, h1, Bool.not_false, Bool.true_and, Bool.not_eq_true', Bool.and_eq_false_iff]
            by_cases hs : c.skipNop = true
            · right; simp only [hs, true_and] at hnop; simp [hnop]
            · left; simpa using hs
          have hss : scopeStage c { e1 with region := newRegion e1.region i.inst } (.inst i) =
              some ([], { e1 with region := newRegion e1.region i.inst }) := by
            unfold scopeStage
            rw [if_neg]
            intro h
            exact h.1 (by simp only [Item.scope]; rw [hs, g3])
          simp only [writeStage, Item.x, hnop, if_false, hss, hk, if_true, Option.map_some, List.nil_append]
          obtain ⟨f1, f2, f3, f4⟩ := hfin { e1 with region := newRegion e1.region i.inst }
          refine ⟨_, rfl, by rw [f1]; exact hseen, ?_, by rw [f3]; exact g3, by rw [f4]; exact g4⟩
          rcases f2 with f2 | f2
          · rw [f2]; exact g1
          · exact f2
    obtain ⟨e1, w1, w2, w3, w4, w5⟩ := hw
    obtain ⟨e2, v1, v2⟩ := writeAll_plain c l e1 (fun j hj => h j (by simp [hj])) w3 w4
    refine ⟨e2, ?_, by rw [v2, w5]⟩
    rw [List.map_cons, writeAll_cons w1 v1, w2]
    simp only [writtenI, List.map_append]
    cases keeps c e.seen i.inst <;> simp [infoOf]

theorem info_plain : ∀ (xs : List PInst) (e : Eff), (∀ x ∈ xs, carriesDebug x = false) → e = Eff.none →
    Spec.info e xs = xs.map fun x => ⟨x, none, noScope⟩
  | [], _, _, _ => rfl
  | x :: xs, e, h, he => by
    have hd := h x (by simp)
    rw [info_eq_run]
    have := run_append [x] xs e
    rw [run_plain hd] at this
    rw [show x :: xs = [x] ++ xs from rfl, this]
    subst he
    have hn : nextEff Eff.none x = Eff.none := by
      unfold nextEff; split
      · rfl
      · split <;> rfl
    simp only [hn, ← info_eq_run]
    rw [info_plain xs Eff.none (fun y hy => h y (by simp [hy])) rfl]
    simp [Eff.none]

theorem exact_aux {bound maxBound b0 : Word} {xs : List PInst} {s : LState} (hr : Spec.Regular xs) (c : Cfg)
    (hx : ∀ x ∈ xs, carriesDebug x = false) (h : addAll (LState.init bound maxBound true) xs = some s) :
    emit c b0 (endModule s) = some ((Spec.written c.skipNop c.filter [] (Spec.inLayout xs)).map (·.inst), b0) ∧ s.bound = bound := by
  obtain ⟨e, hi, hfl⟩ := load_spec hr h
  have hfn : s.fn = none := by
    have := hi.rel.inFn; rw [hr.complete.1] at this
    cases hh : s.fn with
    | none => rfl
    | some f => rw [hh] at this; cases this
  have hgr : s.gr = none := by
    have := hi.rel.inGraph; rw [hr.complete.2] at this
    cases hh : s.gr with
    | none => rfl
    | some f => rw [hh] at this; cases this
  have hcont : (endModule s).content.map infoOf = Spec.inLayout xs := by
    rw [← segs_content hfn hgr, ← flat_map_snd, hfl]; rfl
  obtain ⟨hq, hl, hb⟩ := addAll_exact xs hx rfl rfl (s := LState.init bound maxBound true) (by
    refine ⟨?_, by simp [LState.init, Mod.empty], by simp [LState.init, Mod.empty], by simp [LState.init, Mod.empty],
      by simp [LState.init, Mod.empty], by simp [LState.init, Mod.empty], by simp [LState.init, Mod.empty]⟩
    refine globalSegs_all ?_
    intro j hj
    rw [globalSegs_ex] at hj
    simp [LState.init, Mod.empty] at hj) h
  refine ⟨?_, hb⟩
  have hlines := hq.content hfn
  have hok : ∀ i ∈ (endModule s).content, carriesDebug i.inst = false ∧ i.lines = [] ∧ i.scope = noScope := by
    intro i hi'
    have hmem := inLayout_mem (xs := xs) (a := infoOf i) (by rw [← hcont]; exact List.mem_map_of_mem hi')
    rw [info_plain xs _ hx rfl] at hmem
    obtain ⟨x, hxm, he⟩ := List.mem_map.1 hmem
    simp only [infoOf, Info.mk.injEq] at he
    exact ⟨by rw [← he.1]; exact hx x hxm, hlines i hi', he.2.2.symm⟩
  have hitems : (endModule s).items = (endModule s).content.map .inst := by
    unfold Mod.items Mod.content
    have ht : (endModule s).trailing = [] := by rw [endModule_closed hfn]; exact hl
    have hm : ∀ l : List Instr, (∀ i ∈ l, i.lines = []) → l.flatMap Instr.items = l.map Item.inst := by
      intro l
      induction l with
      | nil => intro _; rfl
      | cons i l ih =>
        intro h
        rw [List.map_cons, List.flatMap_cons, ih fun j hj => h j (by simp [hj])]
        simp [Instr.items, h i (by simp)]
    rw [ht, hm _ fun i hi' => hlines i (by unfold Mod.content; exact List.mem_append_left _ hi')]
    simp
  unfold emit
  obtain ⟨e2, w1, w2⟩ := writeAll_plain { c with dbg := ((endModule s).debugInfo.head?).map (·.inst) }
    (endModule s).content (E.init b0) hok rfl rfl
  rw [hitems, w1]
  simp only [Option.map_some, w2]
  rw [written_eq, hcont]
  rfl

end Verif.Loader
