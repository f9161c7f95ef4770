import Verif.Loader.Insert

/-! # Filing an instruction -/
set_option linter.unusedSimpArgs false
set_option linter.unusedVariables false
namespace Verif.Loader
open Verif.StringLit (Word)
open Spec (Rank Info Key Eff key norm Ctx)

/-- The loader's state and the context of the specification agree. -/
structure CtxRel (s : LState) (c : Ctx) : Prop where
  inFn : c.inFn = s.fn.isSome
  inBlk : c.inBlk = s.blk.isSome
  inGraph : c.inGraph = s.gr.isSome
  fns : c.fns = s.m.fns.length + s.fn.toList.length
  graphs : c.graphs = s.m.graphs.length + s.gr.toList.length
  blkFn : s.fn = none → s.blk = none
  notBoth : s.fn = none ∨ s.gr = none
  scope : s.blk = none → s.scope = noScope

theorem getLast?_map' {α β} (f : α → β) : ∀ l : List α, (l.map f).getLast? = l.getLast?.map f
  | [] => rfl
  | [a] => rfl
  | a :: b :: l => by
    have := getLast?_map' f (b :: l)
    simpa [List.getLast?_cons_cons] using this

@[simp] theorem setScope_line (i : Instr) (sc : Scope) : (i.setScope sc).line = i.line := by
  unfold Instr.setScope Instr.line
  simp only [getLast?_map']
  cases i.lines.getLast? <;> rfl

theorem infoOf_addScope {i : Instr} (hi : i.scope = noScope) (sc : Scope) :
    infoOf (addScope i sc) = ⟨i.inst, i.line, norm sc⟩ := by
  unfold addScope norm
  split
  · simp [infoOf, hi]
  · simp only [infoOf, setScope_line]
    rfl

theorem infoOf_noScope {i : Instr} (hi : i.scope = noScope) : infoOf i = ⟨i.inst, i.line, noScope⟩ := by
  simp [infoOf, hi]

@[simp] theorem norm_noScope : norm noScope = noScope := rfl

/-- What is filed where, and what changes. -/
structure Filed (s : LState) (c : Ctx) (i : Instr) (s' : LState) : Prop where
  ins : flat (segs s') = Spec.insert (Spec.place c i.inst,
    ⟨i.inst, i.line, if i.inst.op = .merge then noScope else norm s.scope⟩) (flat (segs s))
  rel : CtxRel s' (c.after i.inst)
  lines : s'.lines = if i.inst.op = .terminator then [] else s.lines
  lastLine : s'.lastLine = if i.inst.op = .terminator then none else s.lastLine
  scope : s'.scope = if i.inst.op = .terminator ∨ i.inst.op = .merge then noScope else s.scope
  track : s'.track = s.track
  mm : s'.m.memoryModel.isSome → s.m.memoryModel.isSome ∨ i.inst.op = .memoryModel
  sampler : s'.m.sampler.isSome → s.m.sampler.isSome ∨ i.inst.op = .samplerMode

/-- The opcodes handled before looking where we are. -/
def boundary : Op → Bool
  | .function | .functionEnd | .label | .terminator | .graph | .graphEnd | .graphConstant => true
  | _ => false

theorem file_default {s : LState} {i : Instr} (h : boundary i.inst.op = false) :
    file s i = match s.gr with
      | some g => (addInGraph g i).map fun g => { s with gr := some g }
      | none =>
        match s.fn with
        | some f => addInFn s f i
        | none => (addGlobal s.m i).map fun m => { s with m := m } := by
  unfold file
  cases hg : s.gr <;> cases hf : s.fn <;> cases hop : i.inst.op <;> simp_all [boundary]

theorem after_default {c : Ctx} {x : PInst} (h : boundary x.op = false) : c.after x = c := by
  unfold Ctx.after
  cases hop : x.op <;> simp_all [boundary]

theorem place_default {c : Ctx} {x : PInst} (h : boundary x.op = false) :
    Spec.place c x = if c.inGraph then
      match x.op with
      | .graphInput => (15, 5 * (c.graphs - 1) + 1)
      | .graphSetOutput => (15, 5 * (c.graphs - 1) + 3)
      | _ => (15, 5 * (c.graphs - 1) + 2)
    else if c.inFn then
      if c.inBlk then (13, 4 * (c.fns - 1) + 3)
      else match x.op with
        | .functionParameter => (13, 4 * (c.fns - 1) + 1)
        | _ => (13, 4 * (c.fns - 1) + 2)
    else Spec.section_ c x.op := by
  unfold Spec.place
  cases hop : x.op <;> simp_all [boundary]

theorem segs_eq (s : LState) : segs s = globalSegs s.m ++ restSegs s := rfl

theorem pre_fn_le {m : Mod} {n : Nat} (hn : n = m.fns.length) :
    ∀ p ∈ globalSegs m ++ fnsSegs 0 m.fns, p.1.le (13, 4 * n) = true := by
  intro p hp
  refine le_true_iff.2 ?_
  rcases List.mem_append.1 hp with hp | hp
  · have := globalSegs_ranks hp; simp only; omega
  · have := fnsSegs_ranks hp; simp only; omega

theorem post_fn {s : LState} : ∀ p ∈ ((14, 0), s.m.graphEntryPoints) ::
    (grsSegs 0 s.m.graphs ++ openGrSegs s.m.graphs.length s.gr), 14 ≤ p.1.1 := by
  intro p hp
  simp only [List.mem_cons, List.mem_append] at hp
  rcases hp with rfl | hp | hp
  · simp
  · have := grsSegs_ranks hp; omega
  · have := openGrSegs_ranks hp; omega

/-- The part before an open graph. -/
def preGr (s : LState) : List Seg :=
  globalSegs s.m ++ (fnsSegs 0 s.m.fns ++ (openFnSegs s.m.fns.length s.fn s.blk ++
    (((14, 0), s.m.graphEntryPoints) :: grsSegs 0 s.m.graphs)))

theorem segs_pre (s : LState) : segs s = preGr s ++ openGrSegs s.m.graphs.length s.gr := by
  simp [segs, preGr]

theorem preGr_le {s : LState} : ∀ p ∈ preGr s, p.1.le (15, 5 * s.m.graphs.length) = true := by
  intro p hp
  refine le_true_iff.2 ?_
  simp only [preGr, List.mem_cons, List.mem_append] at hp
  rcases hp with hp | hp | hp | rfl | hp
  · have := globalSegs_ranks hp; simp only; omega
  · have := fnsSegs_ranks hp; simp only; omega
  · have := openFnSegs_ranks hp; simp only; omega
  · simp
  · have := grsSegs_ranks hp; simp only; omega

theorem filed_global {s : LState} {c : Ctx} {i : Instr} {m' : Mod} (hr : CtxRel s c) (hi : i.scope = noScope)
    (hb : boundary i.inst.op = false) (hfn : s.fn = none) (hgr : s.gr = none)
    (hmm : i.inst.op = .memoryModel → s.m.memoryModel = none)
    (hsm : i.inst.op = .samplerMode → s.m.sampler = none)
    (h : addGlobal s.m i = some m') : Filed s c i { s with m := m' } := by
  have hblk := hr.blkFn hfn
  have hsc := hr.scope hblk
  have hnorm : norm s.scope = noScope := by rw [hsc]; rfl
  have hcg : c.inGraph = false := by rw [hr.inGraph, hgr]; rfl
  have hcf : c.inFn = false := by rw [hr.inFn, hfn]; rfl
  have hfns : c.fns = s.m.fns.length := by rw [hr.fns, hfn]; rfl
  have hgs : c.graphs = s.m.graphs.length := by rw [hr.graphs, hgr]; rfl
  have hpl : Spec.place c i.inst = Spec.section_ c i.inst.op := by
    rw [place_default hb]; simp [hcg, hcf]
  have hrest : ∀ p ∈ restSegs s, 13 ≤ p.1.1 := fun p hp => restSegs_ranks hp
  have fin : ∀ m'' : Mod, i.inst.op ≠ .merge → m''.fns.length = s.m.fns.length →
      m''.graphs.length = s.m.graphs.length →
      flat (segs { s with m := m'' }) = Spec.insert (Spec.section_ c i.inst.op, infoOf i) (flat (segs s)) →
      (m''.memoryModel.isSome → s.m.memoryModel.isSome ∨ i.inst.op = .memoryModel) →
      (m''.sampler.isSome → s.m.sampler.isSome ∨ i.inst.op = .samplerMode) →
      Filed s c i { s with m := m'' } := by
    intro m'' hm h1 h2 h3 h4 h5
    have ht : i.inst.op ≠ .terminator := by intro hh; rw [hh] at hb; cases hb
    refine ⟨?_, ?_, by simp [ht], by simp [ht], by simp [ht, hm], rfl, h4, h5⟩
    · rw [h3, hpl, infoOf_noScope hi]; simp [hm, hnorm]
    · rw [after_default hb]
      exact ⟨hr.inFn, hr.inBlk, hr.inGraph, by simp only; rw [hr.fns, h1], by simp only; rw [hr.graphs, h2],
        hr.blkFn, hr.notBoth, hr.scope⟩
  unfold addGlobal at h
  split at h
  · rename_i ho
    cases h
    exact fin _ (by simp [ho]) rfl rfl (by rw [ho]; exact ins_caps s.m i hrest) (fun h => .inl h) (fun h => .inl h)
  · rename_i ho
    cases h
    exact fin _ (by simp [ho]) rfl rfl (by rw [ho]; exact ins_exts s.m i hrest) (fun h => .inl h) (fun h => .inl h)
  · rename_i ho
    cases h
    exact fin _ (by simp [ho]) rfl rfl (by rw [ho]; exact ins_imports s.m i hrest) (fun h => .inl h) (fun h => .inl h)
  · rename_i ho
    cases h
    exact fin _ (by simp [ho]) rfl rfl (by rw [ho]; exact ins_memoryModel s.m i (hmm ho) hrest) (fun h => .inr ho) (fun h => .inl h)
  · rename_i ho
    cases h
    exact fin _ (by simp [ho]) rfl rfl (by rw [ho]; exact ins_sampler s.m i (hsm ho) hrest) (fun h => .inl h) (fun h => .inr ho)
  · rename_i ho
    cases h
    exact fin _ (by simp [ho]) rfl rfl (by rw [ho]; exact ins_entryPoints s.m i hrest) (fun h => .inl h) (fun h => .inl h)
  · rename_i ho
    cases h
    refine fin _ (by simp [ho]) rfl rfl ?_ (fun h => .inl h) (fun h => .inl h)
    rw [ho]
    have := insert_flat (r := (14, 0)) (ys := s.m.graphEntryPoints) (i := i)
      (l1 := globalSegs s.m ++ (fnsSegs 0 s.m.fns ++ openFnSegs s.m.fns.length s.fn s.blk))
      (l2 := grsSegs 0 s.m.graphs ++ openGrSegs s.m.graphs.length s.gr)
      (by
        intro p hp
        refine le_true_iff.2 ?_
        simp only [List.mem_append] at hp
        rcases hp with hp | hp | hp
        · have := globalSegs_ranks hp; simp only; omega
        · have := fnsSegs_ranks hp; simp only; omega
        · have := openFnSegs_ranks hp; simp only; omega)
      (by
        intro p hp
        refine le_false_iff.2 ?_
        simp only [List.mem_append] at hp
        rcases hp with hp | hp
        · have := grsSegs_ranks hp; simp only; omega
        · have := openGrSegs_ranks hp; simp only; omega)
    have e : ∀ m'' : Mod, m'' = { s.m with graphEntryPoints := s.m.graphEntryPoints ++ [i] } → globalSegs m'' = globalSegs s.m := by
      intro m'' h; subst h; rfl
    simp only [segs, List.append_assoc] at this ⊢
    exact this.symm
  · rename_i ho
    cases h
    exact fin _ (by simp [ho]) rfl rfl (by rw [ho]; exact ins_modes s.m i hrest) (fun h => .inl h) (fun h => .inl h)
  · rename_i ho
    cases h
    exact fin _ (by simp [ho]) rfl rfl (by rw [ho]; exact ins_debugs1 s.m i hrest) (fun h => .inl h) (fun h => .inl h)
  · rename_i ho
    cases h
    exact fin _ (by simp [ho]) rfl rfl (by rw [ho]; exact ins_debugs2 s.m i hrest) (fun h => .inl h) (fun h => .inl h)
  · rename_i ho
    cases h
    exact fin _ (by simp [ho]) rfl rfl (by rw [ho]; exact ins_debugs3 s.m i hrest) (fun h => .inl h) (fun h => .inl h)
  · rename_i ho
    cases h
    exact fin _ (by simp [ho]) rfl rfl (by rw [ho]; exact ins_annotations s.m i hrest) (fun h => .inl h) (fun h => .inl h)
  · rename_i ho
    cases h
    exact fin _ (by simp [ho]) rfl rfl (by rw [ho]; exact ins_typesValues s.m i hrest) (fun h => .inl h) (fun h => .inl h)
  · rename_i ho
    cases h
    exact fin _ (by simp [ho]) rfl rfl (by rw [ho]; exact ins_typesValues s.m i hrest) (fun h => .inl h) (fun h => .inl h)
  · rename_i ho
    cases h
    exact fin _ (by simp [ho]) rfl rfl (by rw [ho]; exact ins_typesValues s.m i hrest) (fun h => .inl h) (fun h => .inl h)
  · rename_i f set k ho
    split at h
    · rename_i hd
      cases h
      exact fin _ (by simp [ho]) rfl rfl (by rw [ho]; simp only [Spec.section_, hd, if_true]; exact ins_debugInfo s.m i hrest) (fun h => .inl h) (fun h => .inl h)
    · rename_i hd
      split at h
      · split at h
        · rename_i hne
          cases h
          obtain ⟨a, g, hg⟩ : ∃ a g, s.m.graphs = a ++ [g] := by
            rcases List.eq_nil_or_concat s.m.graphs with h | ⟨a, g, h⟩
            · exact absurd h hne
            · exact ⟨a, g, by simpa using h⟩
          refine fin _ (by simp [ho]) rfl (by simp [hg, addToLastGraph_append]) ?_ (fun h => .inl h) (fun h => .inl h)
          rw [ho]
          have hlen : c.graphs ≠ 0 ∧ c.graphs - 1 = a.length := by rw [hgs, hg]; simp
          have e1 : Spec.section_ c (.ext f set k) = (15, 5 * a.length + 4) := by
            simp [Spec.section_, hd, hlen.1, hlen.2]
          rw [e1]
          have := ins_gr_tail a.length g.body (g.fin :: g.nonSem) i
            (A := globalSegs s.m ++ (fnsSegs 0 s.m.fns ++ (((14, 0), s.m.graphEntryPoints) :: grsSegs 0 a)))
            (by
              intro p hp
              refine le_true_iff.2 ?_
              simp only [List.mem_cons, List.mem_append] at hp
              rcases hp with hp | hp | rfl | hp
              · have := globalSegs_ranks hp; simp only; omega
              · have := fnsSegs_ranks hp; simp only; omega
              · simp
              · have := grsSegs_ranks hp; simp only; omega)
          simp only [segs, hfn, hgr, openFnSegs, openGrSegs, hg, addToLastGraph_append, grsSegs_append,
            grsSegs, List.append_nil, List.nil_append, Nat.zero_add, List.append_assoc, List.cons_append] at this ⊢
          exact this
        · split at h
          · rename_i hge hne
            cases h
            obtain ⟨a, g, hg⟩ : ∃ a g, s.m.fns = a ++ [g] := by
              rcases List.eq_nil_or_concat s.m.fns with h | ⟨a, g, h⟩
              · exact absurd h hne
              · exact ⟨a, g, by simpa using h⟩
            refine fin _ (by simp [ho]) (by simp [hg, addToLastFn_append]) rfl ?_ (fun h => .inl h) (fun h => .inl h)
            rw [ho]
            have hge : s.m.graphs = [] := by simpa using hge
            have hlen : c.graphs = 0 ∧ c.fns ≠ 0 ∧ c.fns - 1 = a.length := by rw [hgs, hfns, hg, hge]; simp
            have e1 : Spec.section_ c (.ext f set k) = (13, 4 * a.length + 3) := by
              simp [Spec.section_, hd, hlen.1, hlen.2]
            rw [e1]
            have := ins_fn_tail a.length g.body (g.fin.toList ++ g.nonSem) i
              (A := globalSegs s.m ++ fnsSegs 0 a) (B := ((14, 0), s.m.graphEntryPoints) ::
                (grsSegs 0 s.m.graphs ++ openGrSegs s.m.graphs.length s.gr))
              (by
                intro p hp
                refine le_true_iff.2 ?_
                simp only [List.mem_append] at hp
                rcases hp with hp | hp
                · have := globalSegs_ranks hp; simp only; omega
                · have := fnsSegs_ranks hp; simp only; omega)
              post_fn
            simp only [segs, hfn, hgr, openFnSegs, openGrSegs, hg, addToLastFn_append, fnsSegs_append,
              fnsSegs, List.append_nil, List.nil_append, Nat.zero_add, List.append_assoc, List.cons_append] at this ⊢
            exact this
          · rename_i hge hne
            cases h
            have hge : s.m.graphs = [] := by simpa using hge
            have hne : s.m.fns = [] := by simpa using hne
            refine fin _ (by simp [ho]) rfl rfl ?_ (fun h => .inl h) (fun h => .inl h)
            rw [ho]
            have e1 : Spec.section_ c (.ext f set k) = (11, 0) := by
              simp [Spec.section_, hd, hfns, hgs, hge, hne]
            rw [e1]
            exact ins_typesValues s.m i hrest
      · cases h
  · cases h

theorem filed_graph {s : LState} {c : Ctx} {i : Instr} {g g' : OpenGraph} (hr : CtxRel s c) (hi : i.scope = noScope)
    (hb : boundary i.inst.op = false) (hgr : s.gr = some g)
    (h : addInGraph g i = some g') : Filed s c i { s with gr := some g' } := by
  have hfn : s.fn = none := by rcases hr.notBoth with h | h; exact h; rw [hgr] at h; cases h
  have hblk := hr.blkFn hfn
  have hsc := hr.scope hblk
  have hnorm : norm s.scope = noScope := by rw [hsc]; rfl
  have hcg : c.inGraph = true := by rw [hr.inGraph, hgr]; rfl
  have hgs : c.graphs - 1 = s.m.graphs.length := by rw [hr.graphs, hgr]; simp
  have ht : i.inst.op ≠ .terminator := by intro hh; rw [hh] at hb; cases hb
  have fin : i.inst.op ≠ .merge →
      flat (segs { s with gr := some g' }) = Spec.insert (Spec.place c i.inst, infoOf i) (flat (segs s)) →
      Filed s c i { s with gr := some g' } := by
    intro hm h3
    refine ⟨?_, ?_, by simp [ht], by simp [ht], by simp [ht, hm], rfl, fun h => .inl h, fun h => .inl h⟩
    · rw [h3, infoOf_noScope hi]; simp [hm, hnorm]
    · rw [after_default hb]
      exact ⟨hr.inFn, hr.inBlk, by simp [hcg], hr.fns, by simp [hr.graphs, hgr], hr.blkFn, .inl hfn, hr.scope⟩
  rw [place_default hb] at fin
  simp only [hcg, if_true, hgs] at fin
  have hp : ∀ g'', preGr { s with gr := g'' } = preGr s := fun _ => rfl
  rw [segs_pre, segs_pre, hp, hgr] at fin
  unfold addInGraph at h
  split at h
  · rename_i ho
    cases h
    rw [ho] at fin
    exact fin (by simp) (ins_gr_input s.m.graphs.length g [] i preGr_le)
  · rename_i ho
    cases h
    rw [ho] at fin
    exact fin (by simp) (ins_gr_outputs s.m.graphs.length g [] i preGr_le)
  · rename_i ho
    cases h
    rw [ho] at fin
    exact fin (by simp) (ins_gr_insts s.m.graphs.length g [] i preGr_le)
  · rename_i ho
    cases h
    rw [ho] at fin
    exact fin (by simp) (ins_gr_insts s.m.graphs.length g [] i preGr_le)
  · cases h

theorem whereInFn_block {b op} (h : whereInFn b op = .block) : b = true := by
  unfold whereInFn at h
  cases b
  · split at h <;> first | cases h | (split at h <;> cases h)
  · rfl

theorem whereInFn_header {b op} (h : whereInFn b op = .header) : b = false ∧ op ≠ .functionParameter ∧ op ≠ .merge := by
  unfold whereInFn at h
  cases b
  · refine ⟨rfl, ?_, ?_⟩ <;> (intro ho; subst ho; simp at h)
  · exfalso
    split at h <;> first | cases h | (split at h <;> cases h)

theorem whereInFn_param {b op} (h : whereInFn b op = .param) : b = false ∧ op = .functionParameter := by
  unfold whereInFn at h
  cases b
  · refine ⟨rfl, ?_⟩
    split at h <;> first | rfl | cases h | (split at h <;> cases h)
  · exfalso
    split at h <;> first | cases h | (split at h <;> cases h)

theorem whereInFn_dropped {b op} (h : whereInFn b op = .dropped) :
    b = false ∧ ∃ f k, op = .ext f .shaderDebug k := by
  unfold whereInFn at h
  cases b
  · refine ⟨rfl, ?_⟩
    split at h
    · split at h <;> cases h
    · split at h <;> cases h
    · exact ⟨_, _, rfl⟩
    · cases h
    · cases h
  · exfalso
    split at h <;> first | cases h | (split at h <;> cases h)

theorem filed_fn {s : LState} {c : Ctx} {i : Instr} {f : OpenFn} {s' : LState} (hr : CtxRel s c) (hi : i.scope = noScope)
    (hb : boundary i.inst.op = false) (hfn : s.fn = some f)
    (hdrop : ∀ f k, i.inst.op = .ext f .shaderDebug k → c.inFn → c.inBlk)
    (h : addInFn s f i = some s') : Filed s c i s' := by
  have hgr : s.gr = none := by rcases hr.notBoth with h | h; rw [hfn] at h; cases h; exact h
  have hcg : c.inGraph = false := by rw [hr.inGraph, hgr]; rfl
  have hcf : c.inFn = true := by rw [hr.inFn, hfn]; rfl
  have hfns : c.fns - 1 = s.m.fns.length := by rw [hr.fns, hfn]; simp
  have ht : i.inst.op ≠ .terminator := by intro hh; rw [hh] at hb; cases hb
  have hop : ∀ sc, (addScope i sc).inst = i.inst := by intro sc; unfold addScope; split <;> rfl
  have hnn : norm (if i.inst.op = .merge then noScope else s.scope) = if i.inst.op = .merge then noScope else norm s.scope := by
    split <;> rfl
  have hinfo : ∀ i', i' = addScope i (if i.inst.op = .merge then noScope else s.scope) →
      infoOf i' = ⟨i.inst, i.line, if i.inst.op = .merge then noScope else norm s.scope⟩ := by
    intro i' h; rw [h, infoOf_addScope hi, hnn]
  unfold addInFn at h
  simp only at h
  generalize hi' : addScope i (if i.inst.op = .merge then noScope else s.scope) = i' at h
  have hop' : i'.inst = i.inst := by rw [← hi']; exact hop _
  have hinfo' := hinfo i' hi'.symm
  split at h
  · rename_i b hw hb'
    cases h
    have hblk : s.blk = some b := hb'
    refine ⟨?_, ?_, by simp [ht], by simp [ht], by simp [ht], rfl, fun h => .inl h, fun h => .inl h⟩
    · rw [← hinfo']
      have hpl : Spec.place c i.inst = (13, 4 * s.m.fns.length + 3) := by
        rw [place_default hb]; simp [hcg, hcf, hr.inBlk, hblk, hfns]
      rw [hpl]
      have := ins_fn_tail s.m.fns.length f b i' (A := globalSegs s.m ++ fnsSegs 0 s.m.fns)
        (B := ((14, 0), s.m.graphEntryPoints) :: (grsSegs 0 s.m.graphs ++ openGrSegs s.m.graphs.length s.gr))
        (pre_fn_le rfl) post_fn
      simp only [segs, hfn, hblk, openFnSegs, Option.getD_some, List.append_assoc] at this ⊢
      exact this
    · rw [after_default hb]
      exact ⟨by simp [hr.inFn, hfn], by simp [hr.inBlk, hblk], hr.inGraph, hr.fns, hr.graphs,
        by simp [hfn], .inr hgr, by simp⟩
  · rename_i b hw
    cases h
    rw [hop'] at hw
    obtain ⟨w1, w2, w3⟩ := whereInFn_header hw
    have hblk : s.blk = none := by cases hh : s.blk with
      | none => rfl
      | some b => rw [hh] at w1; cases w1
    refine ⟨?_, ?_, by simp [ht], by simp [ht], by simp [ht], rfl, fun h => .inl h, fun h => .inl h⟩
    · rw [← hinfo']
      have hpl : Spec.place c i.inst = (13, 4 * s.m.fns.length + 2) := by
        rw [place_default hb]
        simp only [hcg, hcf, hr.inBlk, hblk, hfns, Bool.false_eq_true, if_false, if_true, Option.isSome_none]
      rw [hpl]
      have := ins_fn_header s.m.fns.length f [] i' (A := globalSegs s.m ++ fnsSegs 0 s.m.fns)
        (B := ((14, 0), s.m.graphEntryPoints) :: (grsSegs 0 s.m.graphs ++ openGrSegs s.m.graphs.length s.gr))
        (pre_fn_le rfl) post_fn
      simp only [segs, hfn, hblk, openFnSegs, Option.getD_none, List.append_assoc] at this ⊢
      exact this
    · rw [after_default hb]
      exact ⟨by simp [hr.inFn, hfn], by simp [hr.inBlk, hblk], hr.inGraph, by simp [hr.fns, hfn], hr.graphs,
        by simp, .inr hgr, by simp [hr.scope hblk]⟩
  · rename_i b hw
    cases h
    rw [hop'] at hw
    obtain ⟨w1, w2⟩ := whereInFn_param hw
    have hblk : s.blk = none := by cases hh : s.blk with
      | none => rfl
      | some b => rw [hh] at w1; cases w1
    refine ⟨?_, ?_, by simp [ht], by simp [ht], by simp [ht], rfl, fun h => .inl h, fun h => .inl h⟩
    · rw [← hinfo']
      have hpl : Spec.place c i.inst = (13, 4 * s.m.fns.length + 1) := by
        rw [place_default hb]
        simp only [hcg, hcf, hr.inBlk, hblk, hfns, Bool.false_eq_true, if_false, if_true, Option.isSome_none, w2]
      rw [hpl]
      have := ins_fn_param s.m.fns.length f [] i' (A := globalSegs s.m ++ fnsSegs 0 s.m.fns)
        (B := ((14, 0), s.m.graphEntryPoints) :: (grsSegs 0 s.m.graphs ++ openGrSegs s.m.graphs.length s.gr))
        (pre_fn_le rfl) post_fn
      simp only [segs, hfn, hblk, openFnSegs, Option.getD_none, List.append_assoc] at this ⊢
      exact this
    · rw [after_default hb]
      exact ⟨by simp [hr.inFn, hfn], by simp [hr.inBlk, hblk], hr.inGraph, by simp [hr.fns, hfn], hr.graphs,
        by simp, .inr hgr, by simp [hr.scope hblk]⟩
  · rename_i b hw
    rw [hop'] at hw
    obtain ⟨w1, f', k, w2⟩ := whereInFn_dropped hw
    have := hdrop f' k w2 hcf
    rw [hr.inBlk] at this
    rw [this] at w1
    cases w1
  · cases h

/-- Every accepted instruction is inserted at its place. -/
theorem file_filed {s : LState} {c : Ctx} {i : Instr} {s' : LState} (hr : CtxRel s c) (hi : i.scope = noScope)
    (hdrop : ∀ f k, i.inst.op = .ext f .shaderDebug k → c.inFn → c.inBlk)
    (hg : i.inst.op = .graph ∨ i.inst.op = .graphEnd ∨ i.inst.op = .graphConstant → c.inFn = false)
    (hf : i.inst.op = .function → c.inGraph = false)
    (hmm : i.inst.op = .memoryModel → s.m.memoryModel = none)
    (hsm : i.inst.op = .samplerMode → s.m.sampler = none)
    (h : file s i = some s') : Filed s c i s' := by
  cases hb : boundary i.inst.op with
  | false =>
    rw [file_default hb] at h
    cases hgr : s.gr with
    | some g =>
      rw [hgr] at h
      simp only [Option.map_eq_some_iff] at h
      obtain ⟨g', h, rfl⟩ := h
      exact filed_graph hr hi hb hgr h
    | none =>
      rw [hgr] at h
      cases hfn : s.fn with
      | some f =>
        rw [hfn] at h
        exact filed_fn hr hi hb hfn hdrop h
      | none =>
        rw [hfn] at h
        simp only [Option.map_eq_some_iff] at h
        obtain ⟨m', h, rfl⟩ := h
        have := filed_global hr hi hb hfn hgr hmm hsm h
        rw [hfn, hgr] at this
        exact this
  | true =>
    have hfnNone : c.inFn = false → s.fn = none := by
      intro h; rw [hr.inFn] at h
      cases hh : s.fn with
      | none => rfl
      | some f => rw [hh] at h; cases h
    unfold file at h
    split at h
    · rename_i ho
      split at h
      · cases h
      · rename_i hns
        cases h
        have hfn : s.fn = none := by simpa using hns
        have hblk := hr.blkFn hfn
        have hsc := hr.scope hblk
        have hgr : s.gr = none := by
          have := hf ho
          rw [hr.inGraph] at this
          simpa using this
        refine ⟨?_, ?_, by simp [ho], by simp [ho], by simp [ho], rfl, fun h => .inl h, fun h => .inl h⟩
        · have hpl : Spec.place c i.inst = (13, 4 * s.m.fns.length) := by
            simp [Spec.place, ho, hr.fns, hfn]
          rw [hpl]
          have := ins_fn_def s.m.fns.length i (A := globalSegs s.m ++ fnsSegs 0 s.m.fns)
            (B := ((14, 0), s.m.graphEntryPoints) :: (grsSegs 0 s.m.graphs ++ openGrSegs s.m.graphs.length s.gr))
            (pre_fn_le rfl) post_fn
          simp only [segs, hfn, hblk, openFnSegs, Option.getD_none, List.append_assoc, List.nil_append, ho, hsc, norm_noScope,
            infoOf_noScope hi] at this ⊢
          simpa using this
        · simp only [Ctx.after, ho]
          exact ⟨by simp, by simp [hr.inBlk, hblk], hr.inGraph, by simp [hr.fns, hfn], hr.graphs,
            by simp, .inr hgr, by simp [hsc]⟩
    · rename_i ho
      split at h
      · rename_i f hfn hblk
        cases h
        have hsc := hr.scope hblk
        have hgr : s.gr = none := by rcases hr.notBoth with h | h; rw [hfn] at h; cases h; exact h
        refine ⟨?_, ?_, by simp [ho], by simp [ho], by simp [ho], rfl, fun h => .inl h, fun h => .inl h⟩
        · have hpl : Spec.place c i.inst = (13, 4 * s.m.fns.length + 3) := by
            simp [Spec.place, ho, hr.fns, hfn]
          rw [hpl]
          have := ins_fn_tail s.m.fns.length f [] i (A := globalSegs s.m ++ fnsSegs 0 s.m.fns)
            (B := ((14, 0), s.m.graphEntryPoints) :: (grsSegs 0 s.m.graphs ++ openGrSegs s.m.graphs.length s.gr))
            (pre_fn_le rfl) post_fn
          have e : ∀ fns, globalSegs { s.m with fns := fns } = globalSegs s.m := fun _ => rfl
          simp only [segs, hfn, hblk, openFnSegs, Option.getD_none, List.append_assoc, List.nil_append, ho, hsc, norm_noScope,
            infoOf_noScope hi, fnsSegs_append, fnsSegs, List.append_nil, Nat.zero_add, Option.toList_some, e] at this ⊢
          simpa using this
        · simp only [Ctx.after, ho]
          exact ⟨by simp, by simp [hr.inBlk, hblk], hr.inGraph, by simp [hr.fns, hfn], hr.graphs,
            by simp [hblk], .inl rfl, by simp [hsc]⟩
      · cases h
    · rename_i ho
      split at h
      · rename_i f hfn hblk
        cases h
        have hsc := hr.scope hblk
        have hgr : s.gr = none := by rcases hr.notBoth with h | h; rw [hfn] at h; cases h; exact h
        refine ⟨?_, ?_, by simp [ho], by simp [ho], by simp [ho], rfl, fun h => .inl h, fun h => .inl h⟩
        · have hpl : Spec.place c i.inst = (13, 4 * s.m.fns.length + 3) := by
            simp [Spec.place, ho, hr.fns, hfn]
          rw [hpl]
          have := ins_fn_tail s.m.fns.length f [] i (A := globalSegs s.m ++ fnsSegs 0 s.m.fns)
            (B := ((14, 0), s.m.graphEntryPoints) :: (grsSegs 0 s.m.graphs ++ openGrSegs s.m.graphs.length s.gr))
            (pre_fn_le rfl) post_fn
          simp only [segs, hfn, hblk, openFnSegs, Option.getD_none, Option.getD_some, List.append_assoc, List.nil_append, ho, hsc, norm_noScope,
            infoOf_noScope hi] at this ⊢
          simpa using this
        · simp only [Ctx.after, ho]
          exact ⟨hr.inFn, by simp, hr.inGraph, hr.fns, hr.graphs,
            by simp [hfn], .inr hgr, by simp⟩
      · cases h
    · rename_i ho
      split at h
      · rename_i f b hfn hblk
        cases h
        have hgr : s.gr = none := by rcases hr.notBoth with h | h; rw [hfn] at h; cases h; exact h
        refine ⟨?_, ?_, by simp [ho], by simp [ho], by simp [ho], rfl, fun h => .inl h, fun h => .inl h⟩
        · have hpl : Spec.place c i.inst = (13, 4 * s.m.fns.length + 3) := by
            simp [Spec.place, ho, hr.fns, hfn]
          rw [hpl]
          have := ins_fn_tail s.m.fns.length f b (addScope i s.scope) (A := globalSegs s.m ++ fnsSegs 0 s.m.fns)
            (B := ((14, 0), s.m.graphEntryPoints) :: (grsSegs 0 s.m.graphs ++ openGrSegs s.m.graphs.length s.gr))
            (pre_fn_le rfl) post_fn
          simp only [segs, hfn, hblk, openFnSegs, Option.getD_none, Option.getD_some, List.append_assoc, List.nil_append, ho,
            infoOf_addScope hi, fnSegs, List.flatten_append, List.flatten_cons, List.flatten_nil, List.append_nil] at this ⊢
          simpa using this
        · simp only [Ctx.after, ho]
          exact ⟨by simp [hr.inFn, hfn], by simp, hr.inGraph, by simp [hr.fns, hfn], hr.graphs,
            by simp, .inr hgr, by simp⟩
      · cases h
    · rename_i ho
      split at h
      · cases h
      · rename_i hns
        cases h
        have hgr : s.gr = none := by simpa using hns
        have hfn := hfnNone (hg (.inl ho))
        have hblk := hr.blkFn hfn
        have hsc := hr.scope hblk
        refine ⟨?_, ?_, by simp [ho], by simp [ho], by simp [ho], rfl, fun h => .inl h, fun h => .inl h⟩
        · have hpl : Spec.place c i.inst = (15, 5 * s.m.graphs.length) := by
            simp [Spec.place, ho, hr.graphs, hgr]
          rw [hpl]
          have := ins_gr_def s.m.graphs.length i (A := preGr s) preGr_le
          have hp : ∀ g'', preGr { s with gr := g'' } = preGr s := fun _ => rfl
          rw [segs_pre, segs_pre, hp]
          simp only [hgr, openGrSegs, ho, hsc, norm_noScope, infoOf_noScope hi, List.append_nil] at this ⊢
          simpa using this
        · simp only [Ctx.after, ho]
          exact ⟨hr.inFn, hr.inBlk, by simp, hr.fns, by simp [hr.graphs, hgr],
            hr.blkFn, .inl hfn, hr.scope⟩
    · rename_i ho
      split at h
      · rename_i g hgr
        cases h
        have hfn := hfnNone (hg (.inr (.inl ho)))
        have hblk := hr.blkFn hfn
        have hsc := hr.scope hblk
        refine ⟨?_, ?_, by simp [ho], by simp [ho], by simp [ho], rfl, fun h => .inl h, fun h => .inl h⟩
        · have hpl : Spec.place c i.inst = (15, 5 * s.m.graphs.length + 4) := by
            simp [Spec.place, ho, hr.graphs, hgr]
          rw [hpl]
          have := ins_gr_tail s.m.graphs.length g [] i (A := preGr s) preGr_le
          rw [segs_pre s]
          have e : ∀ gs, globalSegs { s.m with graphs := gs } = globalSegs s.m := fun _ => rfl
          simp only [segs, preGr, hgr, openGrSegs, ho, hsc, norm_noScope, infoOf_noScope hi, List.append_nil,
            grsSegs_append, grsSegs, Nat.zero_add, List.nil_append, List.append_assoc, List.cons_append, e] at this ⊢
          simpa using this
        · simp only [Ctx.after, ho]
          exact ⟨hr.inFn, hr.inBlk, by simp, hr.fns, by simp [hr.graphs, hgr],
            hr.blkFn, .inl hfn, hr.scope⟩
      · cases h
    · rename_i ho
      cases h
      have hfn := hfnNone (hg (.inr (.inr ho)))
      have hblk := hr.blkFn hfn
      have hsc := hr.scope hblk
      refine ⟨?_, ?_, by simp [ho], by simp [ho], by simp [ho], rfl, fun h => .inl h, fun h => .inl h⟩
      · have hpl : Spec.place c i.inst = (11, 0) := by simp [Spec.place, ho]
        rw [hpl]
        have := ins_typesValues s.m i (rest := restSegs s) (fun p hp => restSegs_ranks hp)
        rw [infoOf_noScope hi] at this
        simp only [ho, show norm s.scope = noScope by rw [hsc]; rfl]
        exact this
      · simp only [Ctx.after, ho]
        exact ⟨hr.inFn, hr.inBlk, hr.inGraph, hr.fns, hr.graphs, hr.blkFn, hr.notBoth, hr.scope⟩
    · rename_i h1 h2 h3 h4 h5 h6 h7
      exfalso
      revert hb
      unfold boundary
      split <;> simp_all

end Verif.Loader
