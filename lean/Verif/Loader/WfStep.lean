import Verif.Loader.Wf

/-! # Every step of the loader keeps the invariant -/
set_option linter.unusedSimpArgs false
set_option linter.unusedVariables false
namespace Verif.Loader
open Verif.StringLit (Word)
open Spec (Rank Info Key Eff key norm carriesDebug scopeOf Ctx)

variable {P : Key → Prop} {HS HL HO : Prop}

/-- What is known of an instruction with its lines attached. -/
structure Fresh (P : Key → Prop) (HS HL HO : Prop) (s : LState) (i : Instr) : Prop where
  plain : carriesDebug i.inst = false
  scope : i.scope = noScope
  line : i.line = pend s
  lines : LinesOk P i
  linesHL : i.lines ≠ [] → HL
  linesHS : HS ∨ ∀ l ∈ i.lines, l.scope = noScope
  linesOut : s.blk = none → ∀ l ∈ i.lines, l.scope = noScope
  scopeHS : HS ∨ s.scope = noScope
  ops : ∀ l ∈ i.lines, l.inst.isOpLineInst = true → HO

theorem Fresh.out {s : LState} {i : Instr} (h : Fresh P HS HL HO s i) (hb : s.blk = none) (hm : i.inst.op ≠ .merge)
    (ht : i.inst.op ≠ .terminator) : OutOk P i :=
  ⟨h.plain, h.lines, h.scope, h.linesOut hb, hm, ht⟩

theorem addScope_noScope (i : Instr) : addScope i noScope = i := by simp [addScope, noScope]

theorem addScope_inst (i : Instr) (sc : Scope) : (addScope i sc).inst = i.inst := by
  unfold addScope; split <;> rfl

theorem addScope_line (i : Instr) (sc : Scope) : (addScope i sc).line = i.line := by
  unfold addScope; split
  · rfl
  · exact setScope_line i sc

theorem Fresh.inBlock {s : LState} {i : Instr} (h : Fresh P HS HL HO s i) {sc : Scope} (hsc : HS ∨ sc = noScope)
    (hm : i.inst.op = .merge → sc = noScope) (hl : i.inst.op ≠ .label) : LInOk P HS HO (addScope i sc) := by
  refine ⟨by rw [addScope_inst]; exact h.plain, ?_, ?_, ?_, ?_, by rw [addScope_inst]; exact hl, ?_⟩
  · intro l hl'
    unfold addScope at hl'
    split at hl'
    · exact h.lines l hl'
    · simp only [Instr.setScope, List.mem_map] at hl'
      obtain ⟨l0, h0, rfl⟩ := hl'
      exact h.lines l0 h0
  · unfold addScope
    split
    · rw [h.scope]; rfl
    · rename_i h0
      show norm sc = sc
      unfold norm
      rw [if_neg h0]
  · rcases hsc with hsc | hsc
    · exact .inl hsc
    · rw [hsc, addScope_noScope]
      rcases h.linesHS with h' | h'
      · exact .inl h'
      · exact .inr ⟨h.scope, h'⟩
  · rw [addScope_inst]; intro ho
    rw [hm ho, addScope_noScope]; exact h.scope
  · intro l hl'
    unfold addScope at hl'
    split at hl'
    · exact h.ops l hl'
    · simp only [Instr.setScope, List.mem_map] at hl'
      obtain ⟨l0, h0, rfl⟩ := hl'
      exact h.ops l0 h0

structure Added (m : Mod) (i : Instr) (m' : Mod) : Prop where
  glob : ∀ p ∈ globalSegs m', ∀ j ∈ p.2, j = i ∨ ∃ q ∈ globalSegs m, j ∈ q.2
  geps : ∀ j ∈ m'.graphEntryPoints, j = i ∨ j ∈ m.graphEntryPoints
  fns : ∀ f ∈ m'.fns, ∃ f0 ∈ m.fns, f.body = f0.body ∧ f.fin = f0.fin ∧ ∀ j ∈ f.nonSem, j = i ∨ j ∈ f0.nonSem
  graphs : ∀ g ∈ m'.graphs, ∃ g0 ∈ m.graphs, ∀ j ∈ g.instrs, j = i ∨ j ∈ g0.instrs
  dbg : ∀ j ∈ m'.debugInfo, (j = i ∧ ∃ f set k, i.inst.op = .ext f set k ∧ set.isDebug = true) ∨ j ∈ m.debugInfo
  op : i.inst.op ≠ .merge

theorem globalSegs_ex {m : Mod} {j : Instr} : (∃ q ∈ globalSegs m, j ∈ q.2) ↔
    j ∈ m.caps ∨ j ∈ m.exts ∨ j ∈ m.imports ∨ j ∈ m.memoryModel.toList ∨ j ∈ m.sampler.toList ∨ j ∈ m.entryPoints ∨
    j ∈ m.modes ∨ j ∈ m.debugs1 ∨ j ∈ m.debugs2 ∨ j ∈ m.debugs3 ∨ j ∈ m.annotations ∨ j ∈ m.typesValues ∨ j ∈ m.debugInfo := by
  simp [globalSegs]

theorem globalSegs_all {m : Mod} {Q : Instr → Prop} (h : ∀ j, (∃ q ∈ globalSegs m, j ∈ q.2) → Q j) :
    ∀ p ∈ globalSegs m, ∀ j ∈ p.2, Q j := fun p hp j hj => h j ⟨p, hp, hj⟩

theorem addToLastFn_mem : ∀ {fs : List Fn} {i : Instr} {f : Fn}, f ∈ addToLastFn fs i →
    ∃ f0 ∈ fs, f.body = f0.body ∧ f.fin = f0.fin ∧ ∀ j ∈ f.nonSem, j = i ∨ j ∈ f0.nonSem
  | [], _, _, h => by simp [addToLastFn] at h
  | [f], i, f', h => by
    simp only [addToLastFn, List.mem_singleton] at h
    subst h
    exact ⟨f, by simp, rfl, rfl, by intro j hj; simp at hj; exact hj.symm⟩
  | f :: g :: fs, i, f', h => by
    simp only [addToLastFn, List.mem_cons] at h
    rcases h with rfl | h
    · exact ⟨f', by simp, rfl, rfl, fun j hj => .inr hj⟩
    · obtain ⟨f0, h0, h1⟩ := addToLastFn_mem (fs := g :: fs) h
      exact ⟨f0, by simp [List.mem_cons.1 h0], h1⟩

theorem addToLastGraph_mem : ∀ {fs : List Graph} {i : Instr} {f : Graph}, f ∈ addToLastGraph fs i →
    ∃ f0 ∈ fs, ∀ j ∈ f.instrs, j = i ∨ j ∈ f0.instrs
  | [], _, _, h => by simp [addToLastGraph] at h
  | [f], i, f', h => by
    simp only [addToLastGraph, List.mem_singleton] at h
    subst h
    refine ⟨f, by simp, ?_⟩
    intro j hj
    simp only [Graph.instrs, List.mem_append, List.mem_singleton] at hj ⊢
    grind
  | f :: g :: fs, i, f', h => by
    simp only [addToLastGraph, List.mem_cons] at h
    rcases h with rfl | h
    · exact ⟨f', by simp, fun j hj => .inr hj⟩
    · obtain ⟨f0, h0, h1⟩ := addToLastGraph_mem (fs := g :: fs) h
      exact ⟨f0, by simp [List.mem_cons.1 h0], h1⟩

theorem addGlobal_added {m m' : Mod} {i : Instr} (h : addGlobal m i = some m') : Added m i m' := by
  have same : ∀ m'' : Mod, m''.fns = m.fns → m''.graphs = m.graphs → m''.graphEntryPoints = m.graphEntryPoints →
      i.inst.op ≠ .merge →
      (∀ j, (∃ q ∈ globalSegs m'', j ∈ q.2) → j = i ∨ ∃ q ∈ globalSegs m, j ∈ q.2) →
      (∀ j ∈ m''.debugInfo, (j = i ∧ ∃ f set k, i.inst.op = .ext f set k ∧ set.isDebug = true) ∨ j ∈ m.debugInfo) → Added m i m'' := by
    intro m'' h1 h2 h3 h4 h5 h6
    exact ⟨globalSegs_all h5, by rw [h3]; exact fun j hj => .inr hj,
      by rw [h1]; exact fun f hf => ⟨f, hf, rfl, rfl, fun j hj => .inr hj⟩,
      by rw [h2]; exact fun f hf => ⟨f, hf, fun j hj => .inr hj⟩, h6, h4⟩
  unfold addGlobal at h
  split at h
  all_goals try (
    cases h; rename_i ho
    exact same _ rfl rfl rfl (by simp [ho])
      (by intro j; rw [globalSegs_ex, globalSegs_ex]; simp; grind) (by intro j hj; exact .inr hj))
  · rename_i ho
    cases h
    exact ⟨fun p hp j hj => .inr ⟨p, hp, hj⟩, by intro j; simp; grind,
      fun f hf => ⟨f, hf, rfl, rfl, fun j hj => .inr hj⟩,
      fun f hf => ⟨f, hf, fun j hj => .inr hj⟩, fun j hj => .inr hj, by simp [ho]⟩
  · rename_i f set k ho
    split at h
    · rename_i hd
      cases h
      refine same _ rfl rfl rfl (by simp [ho]) (by intro j; rw [globalSegs_ex, globalSegs_ex]; simp; grind) ?_
      intro j hj
      simp at hj
      rcases hj with hj | hj
      · exact .inr hj
      · exact .inl ⟨hj, f, set, k, ho, hd⟩
    · split at h
      · split at h
        · cases h
          exact ⟨fun p hp j hj => .inr ⟨p, hp, hj⟩, fun j hj => .inr hj,
            fun f hf => ⟨f, hf, rfl, rfl, fun j hj => .inr hj⟩,
            fun f hf => addToLastGraph_mem hf, fun j hj => .inr hj, by simp [ho]⟩
        · split at h
          · cases h
            exact ⟨fun p hp j hj => .inr ⟨p, hp, hj⟩, fun j hj => .inr hj,
              fun f hf => addToLastFn_mem hf,
              fun f hf => ⟨f, hf, fun j hj => .inr hj⟩, fun j hj => .inr hj, by simp [ho]⟩
          · cases h
            exact same _ rfl rfl rfl (by simp [ho])
              (by intro j; rw [globalSegs_ex, globalSegs_ex]; simp; grind) (by intro j hj; exact .inr hj)
      · cases h
  · cases h

theorem addInGraph_mem {g g' : OpenGraph} {i : Instr} (h : addInGraph g i = some g') :
    i.inst.op ≠ .merge ∧ ∀ j ∈ [g'.defn] ++ g'.inputs ++ g'.insts ++ g'.outputs,
      j = i ∨ j ∈ [g.defn] ++ g.inputs ++ g.insts ++ g.outputs := by
  unfold addInGraph at h
  split at h
  all_goals first
    | (cases h; done)
    | (cases h; rename_i ho; refine ⟨by simp [ho], ?_⟩; intro j hj; simp at hj ⊢; grind)

theorem pend_congr {s s' : LState} (h1 : s'.lines = s.lines) (h2 : s'.lastLine = s.lastLine) : pend s' = pend s := by
  simp [pend, h1, h2]

theorem file_wf {s : LState} {c : Ctx} {i : Instr} {s' : LState} {pm : Bool} (hr : CtxRel s c) (hw : Wf P HS HL HO pm s)
    (hi : Fresh P HS HL HO s i) (hpm : pm = true → i.inst.op = .terminator)
    (hg : i.inst.op = .graph ∨ i.inst.op = .graphEnd ∨ i.inst.op = .graphConstant → c.inFn = false)
    (h : file s i = some s') : Wf P HS HL HO (decide (i.inst.op = .merge)) s' := by
  have hfnNone : c.inFn = false → s.fn = none := by
    intro h; rw [hr.inFn] at h
    cases hh : s.fn with
    | none => rfl
    | some f => rw [hh] at h; cases h
  cases hb : boundary i.inst.op with
  | false =>
    have ht : i.inst.op ≠ .terminator := by intro hh; rw [hh] at hb; cases hb
    have hlb : i.inst.op ≠ .label := by intro hh; rw [hh] at hb; cases hb
    have hpm' : pm = false := by cases pm; rfl; exact absurd (hpm rfl) ht
    rw [file_default hb] at h
    cases hgr : s.gr with
    | some g =>
      rw [hgr] at h
      simp only [Option.map_eq_some_iff] at h
      obtain ⟨g', h, rfl⟩ := h
      have hfn : s.fn = none := by rcases hr.notBoth with h | h; exact h; rw [hgr] at h; cases h
      have hblk := hr.blkFn hfn
      obtain ⟨hm, hmem⟩ := addInGraph_mem h
      have ho := hi.out hblk hm ht
      refine ⟨hw.glob, hw.geps, hw.fns, hw.fn, ?_, hw.graphs, ?_, hw.dbg⟩
      · intro b hb; simp only [hblk] at hb; cases hb
      · intro g'' hg'' j hj
        cases hg''
        rcases hmem j hj with rfl | hj
        · exact ⟨ho, hi.linesHL⟩
        · exact hw.gr g hgr j hj
    | none =>
      rw [hgr] at h
      cases hfn : s.fn with
      | some f =>
        rw [hfn] at h
        simp only at h
        have hwf := hw.fn f hfn
        unfold addInFn at h
        simp only at h
        generalize hi' : addScope i (if i.inst.op = .merge then noScope else s.scope) = i' at h
        have hop' : i'.inst = i.inst := by rw [← hi']; exact addScope_inst _ _
        split at h
        · rename_i b hwh hb'
          cases h
          have hblk : s.blk = some b := hb'
          refine ⟨hw.glob, hw.geps, hw.fns, hw.fn, ?_, hw.graphs, hw.gr, hw.dbg⟩
          intro b' hb''
          cases hb''
          obtain ⟨l, body, am, rfl, h1, h2, h3, h4⟩ := hw.blk b hblk
          have ham : am = none := by
            cases am with
            | none => rfl
            | some k => have := (h4 k rfl).1; rw [hpm'] at this; cases this
          subst ham
          have hin : LInOk P HS HO i' := by
            rw [← hi']
            refine hi.inBlock ?_ ?_ hlb
            · split
              · exact .inr rfl
              · exact hi.scopeHS
            · intro ho; simp [ho]
          refine ⟨l, body ++ [i'], _, rfl, h1, h2, h3.snoc hin (by rw [hop']; exact ht), ?_⟩
          intro k hk
          rw [hop'] at hk
          split at hk
          · rename_i hm
            refine ⟨by simp [hm], ?_, by simp [hm]⟩
            cases hk
            rw [← hi', addScope_line, hi.line]
            rfl
          · cases hk
        · rename_i hwh
          cases h
          rw [hop'] at hwh
          obtain ⟨w1, w2, w3⟩ := whereInFn_header hwh
          have hblk : s.blk = none := by cases hh : s.blk with
            | none => rfl
            | some b => rw [hh] at w1; cases w1
          have hii : i' = i := by rw [← hi']; simp only [w3, if_false]; rw [hr.scope hblk]; exact addScope_noScope i
          refine ⟨hw.glob, hw.geps, hw.fns, ?_, ?_, hw.graphs, hw.gr, hw.dbg⟩
          · intro f' hf'
            cases hf'
            refine ⟨hwf.defn, hwf.params, ?_, hwf.blocks⟩
            intro j hj
            simp only [List.mem_append, List.mem_singleton] at hj
            rcases hj with hj | rfl
            · exact hwf.header j hj
            · rw [hii]; exact hi.out hblk w3 ht
          · intro b hb; simp only [hblk] at hb; cases hb
        · rename_i hwh
          cases h
          rw [hop'] at hwh
          obtain ⟨w1, w2⟩ := whereInFn_param hwh
          have w3 : i.inst.op ≠ .merge := by rw [w2]; simp
          have hblk : s.blk = none := by cases hh : s.blk with
            | none => rfl
            | some b => rw [hh] at w1; cases w1
          have hii : i' = i := by rw [← hi']; simp only [w3, if_false]; rw [hr.scope hblk]; exact addScope_noScope i
          refine ⟨hw.glob, hw.geps, hw.fns, ?_, ?_, hw.graphs, hw.gr, hw.dbg⟩
          · intro f' hf'
            cases hf'
            refine ⟨hwf.defn, ?_, hwf.header, hwf.blocks⟩
            intro j hj
            simp only [List.mem_append, List.mem_singleton] at hj
            rcases hj with hj | rfl
            · exact hwf.params j hj
            · rw [hii]; exact hi.out hblk w3 ht
          · intro b hb; simp only [hblk] at hb; cases hb
        · rename_i hwh
          cases h
          rw [hop'] at hwh
          obtain ⟨w1, f', k, w2⟩ := whereInFn_dropped hwh
          have hblk : s.blk = none := by cases hh : s.blk with
            | none => rfl
            | some b => rw [hh] at w1; cases w1
          refine ⟨hw.glob, hw.geps, hw.fns, hw.fn, ?_, hw.graphs, hw.gr, hw.dbg⟩
          intro b hb; simp only [hblk] at hb; cases hb
        · cases h
      | none =>
        rw [hfn] at h
        simp only [Option.map_eq_some_iff] at h
        obtain ⟨m', h, rfl⟩ := h
        have hblk := hr.blkFn hfn
        have ha := addGlobal_added h
        have ho := hi.out hblk ha.op ht
        refine ⟨?_, ?_, ?_, ?_, ?_, ?_, ?_, ?_⟩
        · intro p hp j hj
          rcases ha.glob p hp j hj with rfl | ⟨q, hq, hj⟩
          · exact ho
          · exact hw.glob q hq j hj
        · intro j hj
          rcases ha.geps j hj with rfl | hj
          · exact ho
          · exact hw.geps j hj
        · intro f hf
          obtain ⟨f0, h0, h1, h2, h3⟩ := ha.fns f hf
          obtain ⟨k1, k2⟩ := hw.fns f0 h0
          refine ⟨by rw [h1]; exact k1, ?_⟩
          intro j hj
          rw [h2] at hj
          rcases List.mem_append.1 hj with hj | hj
          · exact k2 j (List.mem_append_left _ hj)
          · rcases h3 j hj with rfl | hj
            · exact ho
            · exact k2 j (List.mem_append_right _ hj)
        · intro f hf; cases hf
        · intro b hb; simp only [hblk] at hb; cases hb
        · intro g hg j hj
          obtain ⟨g0, h0, h1⟩ := ha.graphs g hg
          rcases h1 j hj with rfl | hj
          · exact ⟨ho, hi.linesHL⟩
          · exact hw.graphs g0 h0 j hj
        · intro g hg; cases hg
        · intro j hj
          rcases ha.dbg j hj with ⟨rfl, h⟩ | hj
          · exact h
          · exact hw.dbg j hj
  | true =>
    unfold file at h
    split at h
    · rename_i ho
      split at h
      · cases h
      · rename_i hns
        cases h
        have hfn : s.fn = none := by simpa using hns
        have hblk := hr.blkFn hfn
        refine ⟨hw.glob, hw.geps, hw.fns, ?_, ?_, hw.graphs, hw.gr, hw.dbg⟩
        · intro f hf
          cases hf
          exact ⟨hi.out hblk (by simp [ho]) (by simp [ho]), by simp, by simp, by simp⟩
        · intro b hb; simp only [hblk] at hb; cases hb
    · rename_i ho
      split at h
      · rename_i f hfn hblk
        cases h
        refine ⟨hw.glob, hw.geps, ?_, ?_, ?_, hw.graphs, hw.gr, hw.dbg⟩
        · intro f' hf'
          simp only [List.mem_append, List.mem_singleton] at hf'
          rcases hf' with hf' | rfl
          · exact hw.fns f' hf'
          · refine ⟨hw.fn f hfn, ?_⟩
            intro j hj
            simp at hj
            subst hj
            exact hi.out hblk (by simp [ho]) (by simp [ho])
        · intro f hf; cases hf
        · intro b hb; simp only [hblk] at hb; cases hb
      · cases h
    · rename_i ho
      split at h
      · rename_i f hfn hblk
        cases h
        refine ⟨hw.glob, hw.geps, hw.fns, hw.fn, ?_, hw.graphs, hw.gr, hw.dbg⟩
        intro b hb
        cases hb
        exact ⟨i, [], none, rfl, ho, hi.out hblk (by simp [ho]) (by simp [ho]), rfl, fun k hk => by cases hk⟩
      · cases h
    · rename_i ho
      split at h
      · rename_i f b hfn hblk
        cases h
        refine ⟨hw.glob, hw.geps, hw.fns, ?_, ?_, hw.graphs, hw.gr, hw.dbg⟩
        · intro f' hf'
          cases hf'
          have hwf := hw.fn f hfn
          refine ⟨hwf.defn, hwf.params, hwf.header, ?_⟩
          intro b' hb'
          simp only [List.mem_append, List.mem_singleton] at hb'
          rcases hb' with hb' | rfl
          · exact hwf.blocks b' hb'
          · obtain ⟨l, body, am, rfl, h1, h2, h3, h4⟩ := hw.blk b hblk
            refine ⟨l, body ++ [addScope i s.scope], rfl, h1, h2, ?_⟩
            refine h3.finish (hi.inBlock hi.scopeHS (by simp [ho]) (by simp [ho])) (by rw [addScope_inst]; exact ho) ?_
            intro k hk
            obtain ⟨_, k2, k3⟩ := h4 k hk
            exact ⟨by rw [addScope_line, hi.line, k2], by rw [k3, addScope_noScope]; exact hi.scope⟩
        · intro b hb; cases hb
      · cases h
    · rename_i ho
      split at h
      · cases h
      · rename_i hns
        cases h
        have hfn := hfnNone (hg (.inl ho))
        have hblk := hr.blkFn hfn
        refine ⟨hw.glob, hw.geps, hw.fns, hw.fn, ?_, hw.graphs, ?_, hw.dbg⟩
        · intro b hb; simp only [hblk] at hb; cases hb
        · intro g hg j hj
          cases hg
          simp at hj
          subst hj
          exact ⟨hi.out hblk (by simp [ho]) (by simp [ho]), hi.linesHL⟩
    · rename_i ho
      split at h
      · rename_i g hgr
        cases h
        have hfn := hfnNone (hg (.inr (.inl ho)))
        have hblk := hr.blkFn hfn
        refine ⟨hw.glob, hw.geps, hw.fns, hw.fn, ?_, ?_, ?_, hw.dbg⟩
        · intro b hb; simp only [hblk] at hb; cases hb
        · intro g' hg' j hj
          simp only [List.mem_append, List.mem_singleton] at hg'
          rcases hg' with hg' | rfl
          · exact hw.graphs g' hg' j hj
          · have h0 := hw.gr g hgr
            simp only [Graph.instrs, List.append_nil] at hj
            rcases List.mem_append.1 hj with hj | hj
            · exact h0 j hj
            · simp at hj; subst hj
              exact ⟨hi.out hblk (by simp [ho]) (by simp [ho]), hi.linesHL⟩
        · intro g hg; cases hg
      · cases h
    · rename_i ho
      cases h
      have hfn := hfnNone (hg (.inr (.inr ho)))
      have hblk := hr.blkFn hfn
      refine ⟨?_, hw.geps, hw.fns, hw.fn, ?_, hw.graphs, hw.gr, hw.dbg⟩
      · refine globalSegs_all ?_
        intro j hj
        have : j = i ∨ ∃ q ∈ globalSegs s.m, j ∈ q.2 := by
          rw [globalSegs_ex] at hj ⊢
          simp at hj ⊢
          grind
        rcases this with rfl | ⟨q, hq, hj⟩
        · exact hi.out hblk (by simp [ho]) (by simp [ho])
        · exact hw.glob q hq j hj
      · intro b hb; simp only [hblk] at hb; cases hb
    · rename_i h1 h2 h3 h4 h5 h6 h7
      exfalso
      revert hb
      unfold boundary
      split <;> simp_all

end Verif.Loader
