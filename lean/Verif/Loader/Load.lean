import Verif.Loader.WfStep

/-! # Loading a stream of instructions -/
set_option linter.unusedSimpArgs false
set_option linter.unusedVariables false
namespace Verif.Loader
open Verif.StringLit (Word)
open Spec (Rank Info Key Eff key norm carriesDebug scopeOf Ctx)

variable {P : Key → Prop} {HS HL HO : Prop}

theorem carries_after {x : PInst} (h : carriesDebug x = true) (c : Ctx) : c.after x = c := by
  simp only [carriesDebug, PInst.isLineInst, PInst.isLine, PInst.isNoLine, PInst.isScope, PInst.isNoScope] at h
  unfold Ctx.after
  cases ho : x.op <;> simp_all

theorem carries_op {x : PInst} (h : carriesDebug x = true) : x.op ≠ .merge ∧ x.op ≠ .terminator ∧
    x.op ≠ .memoryModel ∧ x.op ≠ .samplerMode := by
  simp only [carriesDebug, PInst.isLineInst, PInst.isLine, PInst.isNoLine, PInst.isScope, PInst.isNoScope] at h
  cases ho : x.op <;> simp_all

/-- The state of the loader and of the specification. -/
structure Inv (P : Key → Prop) (HS HL HO : Prop) (pm : Bool) (s : LState) (c : Ctx) (e : Eff) : Prop where
  rel : CtxRel s c
  line : LineInv P HS HL HO s
  wf : Wf P HS HL HO pm s
  eLine : e.line = pend s
  eScope : e.scope = norm s.scope

theorem pend_snoc (s : LState) (ls : List LineInst) (l : LineInst) (h : s.lines = ls ++ [l]) : pend s = lineKey l.inst := by
  simp [pend, h]

/-- What is required of one instruction in its context. -/
structure Local (P : Key → Prop) (HS HL HO : Prop) (c : Ctx) (x : PInst) : Prop where
  scopes : x.isScope ∨ x.isNoScope → c.inBlk
  debug : ∀ f k, x.op = .ext f .shaderDebug k → carriesDebug x = false → c.inFn → c.inBlk
  graphs : x.op = .graph ∨ x.op = .graphEnd ∨ x.op = .graphConstant → c.inFn = false
  functions : x.op = .function → c.inGraph = false
  hP : x.isLine → P (key x)
  hL : x.isLineInst → HL
  hS : x.isScope → HS
  hO : x.isOpLineInst → HO

theorem step_debug {s s' : LState} {c : Ctx} {e : Eff} {x : PInst} (hi : Inv P HS HL HO false s c e)
    (hl : Local P HS HL HO c x) (hd : carriesDebug x = true) (h : addInstruction s x = some s') :
    ∃ e', (∀ xs, Spec.info e (x :: xs) = Spec.info e' xs) ∧ Inv P HS HL HO false s' (c.after x) e' ∧
      flat (segs s') = flat (segs s) ∧ s'.m = s.m := by
  rw [carries_after hd]
  have wfOf : ∀ s'', s''.m = s.m → s''.fn = s.fn → s''.blk = s.blk → s''.gr = s.gr → Wf P HS HL HO false s'' := by
    intro s'' h1 h2 h3 h4
    have hw := hi.wf
    refine ⟨by rw [h1]; exact hw.glob, by rw [h1]; exact hw.geps, by rw [h1]; exact hw.fns, by rw [h2]; exact hw.fn,
      ?_, by rw [h1]; exact hw.graphs, by rw [h4]; exact hw.gr, by rw [h1]; exact hw.dbg⟩
    rw [h3]
    intro b hb
    obtain ⟨l, body, am, k1, k2, k3, k4, k5⟩ := hw.blk b hb
    refine ⟨l, body, am, k1, k2, k3, k4, ?_⟩
    intro k hk
    have := (k5 k hk).1
    cases this
  unfold addInstruction at h
  split at h
  · rename_i hli
    cases h
    refine ⟨⟨lineKey x, e.scope⟩, ?_, ⟨?_, ?_, wfOf _ rfl rfl rfl rfl, ?_, hi.eScope⟩, rfl, rfl⟩
    · intro xs
      rw [info_eq_run, info_eq_run]
      have := run_append [x] xs e
      rw [run_line hli] at this
      rw [show x :: xs = [x] ++ xs from rfl, this]
      simp
    · exact ⟨hi.rel.inFn, hi.rel.inBlk, hi.rel.inGraph, hi.rel.fns, hi.rel.graphs, hi.rel.blkFn, hi.rel.notBoth, hi.rel.scope⟩
    · have hh := hi.line
      refine ⟨?_, fun _ => hl.hL hli, ?_, ?_, by simp, by simp, hh.scopeHS, hh.track, ?_⟩
      · intro l hl'
        simp only [List.mem_append, List.mem_singleton] at hl'
        rcases hl' with hl' | rfl
        · exact hh.lines l hl'
        · exact ⟨hli, hl.hP⟩
      · rcases hh.linesHS with h1 | h1
        · exact .inl h1
        · rcases hh.scopeHS with h2 | h2
          · exact .inl h2
          · right
            intro l hl'
            simp only [List.mem_append, List.mem_singleton] at hl'
            rcases hl' with hl' | rfl
            · exact h1 l hl'
            · exact h2
      · intro hb l hl'
        simp only [List.mem_append, List.mem_singleton] at hl'
        rcases hl' with hl' | rfl
        · exact hh.linesOut hb l hl'
        · exact hi.rel.scope hb
      · intro l hl' ho
        simp only [List.mem_append, List.mem_singleton, Option.toList_none, List.not_mem_nil, or_false] at hl'
        rcases hl' with hl' | rfl
        · exact hh.ops l (List.mem_append_left _ hl') ho
        · exact hl.hO ho
    · simp [pend]
  · rename_i hli
    have hli' : x.isLine = false ∧ x.isNoLine = false := by
      simpa [PInst.isLineInst] using hli
    have scopeCase : ∀ sc : Scope, (sc.lex = 0 ∧ sc = noScope ∨ HS) → c.inBlk = true →
        Inv P HS HL HO false { s with scope := sc } c ⟨e.line, norm sc⟩ := by
      intro sc hsc hb
      have hblk : s.blk ≠ none := by
        rw [hi.rel.inBlk] at hb; intro hn; rw [hn] at hb; cases hb
      have hh := hi.line
      refine ⟨⟨hi.rel.inFn, hi.rel.inBlk, hi.rel.inGraph, hi.rel.fns, hi.rel.graphs, hi.rel.blkFn, hi.rel.notBoth,
        fun h => absurd h hblk⟩, ?_, wfOf _ rfl rfl rfl rfl, hi.eLine, rfl⟩
      exact ⟨hh.lines, hh.linesHL, hh.linesHS, hh.linesOut, hh.last, hh.excl,
        (by rcases hsc with h | h; exact .inr h.2; exact .inl h), hh.track, hh.ops⟩
    split at h
    · rename_i hs
      have hb := hl.scopes (.inl hs)
      split at h
      · cases h
      · rename_i sc hrd
        cases h
        refine ⟨⟨e.line, norm sc⟩, ?_, scopeCase sc (.inr (hl.hS hs)) hb, rfl, rfl⟩
        intro xs
        have : scopeOf x = norm sc := by
          unfold PInst.readScope at hrd
          unfold scopeOf
          split at hrd
          · cases hrd
          · rename_i l hw
            cases hrd
            simp [List.getD, hw]
        simp [Spec.info, hli'.1, hli'.2, hs, this]
    · rename_i hs
      split at h
      · rename_i hn
        cases h
        refine ⟨⟨e.line, noScope⟩, ?_, scopeCase noScope (.inl ⟨rfl, rfl⟩) (hl.scopes (.inr hn)), rfl, rfl⟩
        intro xs
        simp [Spec.info, hli'.1, hli'.2, hs, hn]
      · rename_i hn
        simp [carriesDebug, hli, hs, hn] at hd

theorem step_plain {s s' : LState} {c : Ctx} {e : Eff} {x : PInst} {pm : Bool} (hi : Inv P HS HL HO pm s c e)
    (hl : Local P HS HL HO c x) (hd : carriesDebug x = false) (hpm : pm = true → x.op = .terminator)
    (hmm : x.op = .memoryModel → s.m.memoryModel = none)
    (hsm : x.op = .samplerMode → s.m.sampler = none)
    (h : addInstruction s x = some s') :
    ∃ a e', (∀ xs, Spec.info e (x :: xs) = a :: Spec.info e' xs) ∧
      Inv P HS HL HO (decide (x.op = .merge)) s' (c.after x) e' ∧
      flat (segs s') = Spec.insert (Spec.place c x, a) (flat (segs s)) ∧
      (s'.m.memoryModel.isSome → s.m.memoryModel.isSome ∨ x.op = .memoryModel) ∧
      (s'.m.sampler.isSome → s.m.sampler.isSome ∨ x.op = .samplerMode) := by
  have hd' := hd
  simp only [carriesDebug, Bool.or_eq_false_iff] at hd'
  unfold addInstruction at h
  simp only [hd'.1.1, hd'.1.2, hd'.2, Bool.false_eq_true, if_false] at h
  have ha := attach_spec hi.line hi.rel.scope x
  generalize attach s x = r at h ha
  obtain ⟨i, s1⟩ := r
  simp only at h ha
  obtain ⟨ll, b, hs1⟩ := ha.same
  have hx := ha.inst
  have hm : s1.m = s.m := by rw [hs1]
  have hfn : s1.fn = s.fn := by rw [hs1]
  have hbk : s1.blk = s.blk := by rw [hs1]
  have hgr : s1.gr = s.gr := by rw [hs1]
  have hsc : s1.scope = s.scope := by rw [hs1]
  have hln : s1.lines = [] := by rw [hs1]
  have hseg : segs s1 = segs s := by rw [hs1]; rfl
  have hr1 : CtxRel s1 c := by
    have := hi.rel
    exact ⟨by rw [hfn]; exact this.inFn, by rw [hbk]; exact this.inBlk, by rw [hgr]; exact this.inGraph,
      by rw [hm, hfn]; exact this.fns, by rw [hm, hgr]; exact this.graphs, by rw [hfn, hbk]; exact this.blkFn,
      by rw [hfn, hgr]; exact this.notBoth, by rw [hbk, hsc]; exact this.scope⟩
  have hw1 : Wf P HS HL HO pm s1 := by
    have := hi.wf
    refine ⟨by rw [hm]; exact this.glob, by rw [hm]; exact this.geps, by rw [hm]; exact this.fns,
      by rw [hfn]; exact this.fn, ?_, by rw [hm]; exact this.graphs, by rw [hgr]; exact this.gr, by rw [hm]; exact this.dbg⟩
    rw [hbk, ha.pend, hsc]; exact this.blk
  have hF : Fresh P HS HL HO s1 i := ⟨by rw [hx]; exact hd, ha.scope, by rw [ha.line, ha.pend], ha.lines, ha.linesHL,
    ha.linesHS, by rw [hbk]; exact ha.linesOut, by rw [hsc]; exact hi.line.scopeHS, ha.ops⟩
  have hfile := file_filed hr1 ha.scope
    (by rw [hx]; exact fun f k ho => hl.debug f k ho hd)
    (by rw [hx]; exact hl.graphs) (by rw [hx]; exact hl.functions) (by rw [hx, hm]; exact hmm) (by rw [hx, hm]; exact hsm) h
  have hwf := file_wf hr1 hw1 hF (by rw [hx]; exact hpm) (by rw [hx]; exact hl.graphs) h
  rw [hx] at hwf
  refine ⟨⟨x, e.line, if x.op = .merge then noScope else e.scope⟩, nextEff e x, ?_, ⟨?_, ?_, hwf, ?_, ?_⟩, ?_, ?_, ?_⟩
  · intro xs
    rw [info_eq_run, info_eq_run]
    have := run_append [x] xs e
    rw [run_plain hd] at this
    rw [show x :: xs = [x] ++ xs from rfl, this]
    simp
  · rw [← hx]; exact hfile.rel
  · have hv := ha.inv
    have hl' : s'.lines = [] := by rw [hfile.lines, hln]; split <;> rfl
    refine ⟨by simp [hl'], by simp [hl'], .inr (by simp [hl']), by simp [hl'], ?_, by simp [hl'], ?_, ?_, ?_⟩
    · intro l hl
      rw [hfile.lastLine] at hl
      split at hl
      · cases hl
      · exact hv.last l hl
    · rw [hfile.scope]; split
      · exact .inr rfl
      · exact hv.scopeHS
    · rw [hfile.track]; exact hv.track
    · intro l hl
      rw [hl', hfile.lastLine] at hl
      split at hl
      · simp at hl
      · exact hv.ops l (List.mem_append_right _ (by simpa using hl))
  · have hp : pend s' = if x.op = .terminator then none else pend s := by
      rw [← ha.pend]
      unfold pend
      rw [hfile.lines, hfile.lastLine, hx]
      by_cases ht : x.op = .terminator
      · simp [ht]
      · simp only [ht, if_false]
    rw [hp, nextEff]
    split
    · rfl
    · split <;> exact hi.eLine
  · rw [hfile.scope, hx, nextEff, hsc]
    by_cases ht : x.op = .terminator
    · simp [ht, Eff.none]
    · by_cases hmg : x.op = .merge
      · simp [hmg]
      · simp [ht, hmg, hi.eScope]
  · rw [hfile.ins, hx, ha.line, hi.eLine, hi.eScope, hsc, hseg]
  · rw [← hm, ← hx]; exact hfile.mm
  · rw [← hm, ← hx]; exact hfile.sampler

theorem addAll_spec : ∀ (xs : List PInst) {s s' : LState} {c : Ctx} {e : Eff} {pm : Bool}, Inv P HS HL HO pm s c e →
    (∀ p ∈ Spec.contexts c xs, Local P HS HL HO p.1 p.2) → Spec.mergesOk xs →
    (pm = true → ∃ y ys, xs = y :: ys ∧ y.op = .terminator) →
    s.m.memoryModel.toList.length + (xs.filter fun x => decide (x.op = .memoryModel)).length ≤ 1 →
    s.m.sampler.toList.length + (xs.filter fun x => decide (x.op = .samplerMode)).length ≤ 1 →
    addAll s xs = some s' →
    ∃ e', Inv P HS HL HO false s' (Spec.finalCtx c xs) e' ∧
      flat (segs s') = ((Spec.places c xs).zip (Spec.info e xs)).foldl (fun acc a => Spec.insert a acc) (flat (segs s))
  | [], s, s', c, e, pm, hi, _, _, hpm, _, _, h => by
    cases h
    refine ⟨e, ?_, rfl⟩
    cases pm with
    | false => exact hi
    | true => obtain ⟨y, ys, h, _⟩ := hpm rfl; cases h
  | x :: xs, s, s', c, e, pm, hi, hl, hmo, hpm, hmm, hsm, h => by
    simp only [addAll] at h
    cases ha : addInstruction s x with
    | none => rw [ha] at h; cases h
    | some s1 =>
      rw [ha] at h
      simp only at h
      have hlx : Local P HS HL HO c x := hl (c, x) (by simp [Spec.contexts])
      have hlr : ∀ p ∈ Spec.contexts (c.after x) xs, Local P HS HL HO p.1 p.2 :=
        fun p hp => hl p (by simp [Spec.contexts, hp])
      have hpx : pm = true → x.op = .terminator := by
        intro hp
        obtain ⟨y, ys, hy, ho⟩ := hpm hp
        cases hy; exact ho
      cases hd : carriesDebug x with
      | true =>
        obtain ⟨n1, n2, n3, n4⟩ := carries_op hd
        have hpf : pm = false := by cases pm; rfl; exact absurd (hpx rfl) n2
        subst hpf
        obtain ⟨e', h1, h2, h3, h4⟩ := step_debug hi hlx hd ha
        obtain ⟨e2, k1, k2⟩ := addAll_spec xs h2 hlr hmo.2 (by simp) (by simpa [h4, n3] using hmm)
          (by simpa [h4, n4] using hsm) h
        refine ⟨e2, k1, ?_⟩
        rw [k2, h1, h3]
        simp [Spec.places, Spec.contexts, hd]
      | false =>
        have cnt : ∀ (o : Option Instr) (op : Op), o.toList.length + ((x :: xs).filter fun x => decide (x.op = op)).length ≤ 1 →
            (x.op = op → o = none) ∧
            ∀ o' : Option Instr, (o'.isSome → o.isSome ∨ x.op = op) →
              o'.toList.length + (xs.filter fun x => decide (x.op = op)).length ≤ 1 := by
          intro o op hc
          by_cases ho : x.op = op
          · simp [List.filter_cons, ho] at hc
            refine ⟨fun _ => ?_, fun o' _ => ?_⟩
            · cases o with
              | none => rfl
              | some a => simp at hc; omega
            · have : (xs.filter fun x => decide (x.op = op)).length = 0 := by omega
              rw [this]
              cases o' <;> simp
          · simp [List.filter_cons, ho] at hc
            refine ⟨fun h => absurd h ho, fun o' h' => ?_⟩
            cases o' with
            | none => simp; omega
            | some a =>
              rcases h' rfl with h' | h'
              · cases o with
                | none => cases h'
                | some b => simpa using hc
              · exact absurd h' ho
        obtain ⟨a, e', h1, h2, h3, h4, h5⟩ := step_plain hi hlx hd hpx (cnt _ _ hmm).1 (cnt _ _ hsm).1 ha
        obtain ⟨e2, k1, k2⟩ := addAll_spec xs h2 hlr hmo.2 (by
          intro hm
          exact hmo.1 (by simpa using hm)) ((cnt _ _ hmm).2 _ h4) ((cnt _ _ hsm).2 _ h5) h
        refine ⟨e2, k1, ?_⟩
        rw [k2, h1, h3]
        simp [Spec.places, Spec.contexts, hd]

theorem init_inv (bound maxBound : Word) : Inv P HS HL HO false (LState.init bound maxBound true) Ctx.start Eff.none := by
  refine ⟨⟨rfl, rfl, rfl, rfl, rfl, fun _ => rfl, .inl rfl, fun _ => rfl⟩,
    ⟨by simp [LState.init], by simp [LState.init], .inr (by simp [LState.init]), by simp [LState.init], by simp [LState.init],
      by simp [LState.init], .inr rfl, rfl, by simp [LState.init]⟩,
    ⟨?_, by simp [LState.init, Mod.empty], by simp [LState.init, Mod.empty], by simp [LState.init, Mod.empty],
      by simp [LState.init, Mod.empty], by simp [LState.init, Mod.empty], by simp [LState.init, Mod.empty], by simp [LState.init, Mod.empty]⟩, rfl, rfl⟩
  refine globalSegs_all ?_
  intro j hj
  rw [globalSegs_ex] at hj
  simp [LState.init, Mod.empty] at hj

/-- The positions, and whether there are scopes, lines, `OpLine`s. -/
def lineKeys (xs : List PInst) (k : Key) : Prop := ∃ x ∈ xs, x.isLine = true ∧ key x = k
def hasScope (xs : List PInst) : Prop := ∃ x ∈ xs, x.isScope = true
def hasLine (xs : List PInst) : Prop := ∃ x ∈ xs, x.isLineInst = true
def hasOpLine (xs : List PInst) : Prop := ∃ x ∈ xs, x.isOpLineInst = true

theorem contexts_mem : ∀ {xs : List PInst} {c : Ctx} {p : Ctx × PInst}, p ∈ Spec.contexts c xs → p.2 ∈ xs
  | x :: xs, c, p, h => by
    simp only [Spec.contexts, List.mem_cons] at h
    rcases h with rfl | h
    · simp
    · simp [contexts_mem h]

/-- What loading a regular stream gives. -/
theorem load_spec {bound maxBound : Word} {xs : List PInst} {s : LState} (hr : Spec.Regular xs)
    (h : addAll (LState.init bound maxBound true) xs = some s) :
    ∃ e, Inv (lineKeys xs) (hasScope xs) (hasLine xs) (hasOpLine xs) false s (Spec.finalCtx Ctx.start xs) e ∧
      flat (segs s) = Spec.sort ((Spec.places Ctx.start xs).zip (Spec.info Eff.none xs)) := by
  have hn : flat (segs (LState.init bound maxBound true)) = [] := rfl
  obtain ⟨e, h1, h2⟩ := addAll_spec (P := lineKeys xs) (HS := hasScope xs) (HL := hasLine xs) (HO := hasOpLine xs) xs
    (init_inv bound maxBound) (by
      intro p hp
      have hm := contexts_mem hp
      exact ⟨hr.scopes p hp, hr.debug p hp, hr.graphs p hp, hr.functions p hp, fun h => ⟨_, hm, h, rfl⟩,
        fun h => ⟨_, hm, h⟩, fun h => ⟨_, hm, h⟩, fun h => ⟨_, hm, h⟩⟩) hr.merges (by simp)
    (by simpa [LState.init, Mod.empty] using hr.memoryModel) (by simpa [LState.init, Mod.empty] using hr.sampler) h
  exact ⟨e, h1, by rw [h2, hn]; rfl⟩

end Verif.Loader
