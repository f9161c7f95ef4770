import Verif.Loader.Load

/-! # Emitting what has been loaded -/
set_option linter.unusedSimpArgs false
set_option linter.unusedVariables false
namespace Verif.Loader
open Verif.StringLit (Word)
open Spec (Rank Info Key Eff key norm carriesDebug scopeOf Ctx)

variable {P : Key → Prop} {HS HL HO : Prop}

/-! ## The contents of a module -/

/-- The instructions of a module in the order in which they are emitted. -/
def Mod.content (m : Mod) : List Instr := m.beforeGraphs ++ m.inGraphs

theorem flat_map_snd : ∀ l : List Seg, (flat l).map (·.2) = (l.flatMap (·.2)).map infoOf
  | [] => rfl
  | p :: l => by
    rw [flat_cons, List.map_append, flat_map_snd l]
    simp [Function.comp_def]

theorem fnsSegs_instrs : ∀ (k : Nat) (fs : List Fn), (fnsSegs k fs).flatMap (·.2) = fs.flatMap Fn.instrs
  | _, [] => rfl
  | k, f :: fs => by
    simp only [fnsSegs, List.flatMap_append, fnsSegs_instrs (k + 1) fs, List.flatMap_cons]
    simp [fnSegs, Fn.instrs]

theorem grsSegs_instrs : ∀ (k : Nat) (fs : List Graph), (grsSegs k fs).flatMap (·.2) = fs.flatMap Graph.instrs
  | _, [] => rfl
  | k, f :: fs => by
    simp only [grsSegs, List.flatMap_append, grsSegs_instrs (k + 1) fs, List.flatMap_cons]
    simp [grSegs, Graph.instrs]

theorem endModule_closed {s : LState} (hf : s.fn = none) : endModule s = { s.m with trailing := s.lines } := by
  unfold endModule
  cases hb : s.blk <;> simp [hf]

theorem segs_content {s : LState} (hf : s.fn = none) (hg : s.gr = none) :
    (segs s).flatMap (·.2) = (endModule s).content := by
  rw [endModule_closed hf]
  simp only [segs, hf, hg, openFnSegs, openGrSegs, List.flatMap_append, fnsSegs_instrs, grsSegs_instrs, List.flatMap_cons,
    List.flatMap_nil, List.append_nil, List.nil_append]
  simp [globalSegs, Mod.content, Mod.beforeGraphs, Mod.inGraphs]

/-! ## Sorting -/

theorem mem_insert {a b : Rank × Info} : ∀ {l : List (Rank × Info)}, b ∈ Spec.insert a l ↔ b = a ∨ b ∈ l
  | [] => by simp [Spec.insert]
  | c :: l => by
    unfold Spec.insert
    split
    · simp only [List.mem_cons, mem_insert (l := l)]; grind
    · simp only [List.mem_cons]

theorem mem_foldl_insert {b : Rank × Info} : ∀ {l acc : List (Rank × Info)},
    b ∈ l.foldl (fun acc a => Spec.insert a acc) acc ↔ b ∈ l ∨ b ∈ acc
  | [], acc => by simp
  | a :: l, acc => by
    simp only [List.foldl_cons, mem_foldl_insert (l := l), mem_insert, List.mem_cons]; grind

theorem mem_sort {b : Rank × Info} {l : List (Rank × Info)} : b ∈ Spec.sort l ↔ b ∈ l := by
  unfold Spec.sort; rw [mem_foldl_insert]; simp

theorem insert_last {a : Rank × Info} : ∀ {l : List (Rank × Info)}, (∀ b ∈ l, b.1.le a.1 = true) → Spec.insert a l = l ++ [a]
  | [], _ => rfl
  | b :: l, h => by
    simp [Spec.insert, h b (by simp), insert_last (l := l) fun c hc => h c (by simp [hc])]

theorem sort_sorted_aux : ∀ {l acc : List (Rank × Info)}, (∀ b ∈ acc, ∀ a ∈ l, b.1.le a.1 = true) →
    l.Pairwise (fun a b => a.1.le b.1 = true) → l.foldl (fun acc a => Spec.insert a acc) acc = acc ++ l
  | [], acc, _, _ => by simp
  | a :: l, acc, h, hp => by
    rw [List.pairwise_cons] at hp
    rw [List.foldl_cons, insert_last fun b hb => h b hb a (by simp), sort_sorted_aux ?_ hp.2]
    · simp
    · intro b hb c hc
      simp only [List.mem_append, List.mem_singleton] at hb
      rcases hb with hb | rfl
      · exact h b hb c (by simp [hc])
      · exact hp.1 c hc

theorem sort_sorted {l : List (Rank × Info)} (h : l.Pairwise (fun a b => a.1.le b.1 = true)) : Spec.sort l = l := by
  unfold Spec.sort; rw [sort_sorted_aux (by simp) h]; rfl

theorem info_length : ∀ (xs : List PInst) (c : Ctx) (e : Eff), (Spec.places c xs).length = (Spec.info e xs).length
  | [], _, _ => rfl
  | x :: xs, c, e => by
    have ih := info_length xs (c.after x)
    cases hd : carriesDebug x with
    | true =>
      have h1 : Spec.places c (x :: xs) = Spec.places (c.after x) xs := by simp [Spec.places, Spec.contexts, hd]
      rw [h1]
      have h2 : ∃ e', Spec.info e (x :: xs) = Spec.info e' xs := by
        simp only [carriesDebug, PInst.isLineInst, Bool.or_eq_true] at hd
        rw [Spec.info]
        split
        · exact ⟨_, rfl⟩
        · split
          · exact ⟨_, rfl⟩
          · split
            · exact ⟨_, rfl⟩
            · split
              · exact ⟨_, rfl⟩
              · simp_all
      obtain ⟨e', h2⟩ := h2
      rw [h2]; exact ih e'
    | false =>
      have h1 : Spec.places c (x :: xs) = Spec.place c x :: Spec.places (c.after x) xs := by
        simp [Spec.places, Spec.contexts, hd]
      have h2 : ∃ a e', Spec.info e (x :: xs) = a :: Spec.info e' xs := by
        rw [info_eq_run]
        have := run_append [x] xs e
        rw [run_plain hd] at this
        rw [show x :: xs = [x] ++ xs from rfl, this]
        exact ⟨_, nextEff e x, by rw [info_eq_run]; rfl⟩
      obtain ⟨a, e', h2⟩ := h2
      rw [h1, h2, List.length_cons, List.length_cons, ih e']

theorem zip_map_fst {α β} : ∀ {a : List α} {b : List β}, a.length = b.length → (a.zip b).map (·.1) = a
  | [], [], _ => rfl
  | x :: a, y :: b, h => by simp at h; simp [zip_map_fst h]

theorem zip_map_snd {α β} : ∀ {a : List α} {b : List β}, a.length = b.length → (a.zip b).map (·.2) = b
  | [], [], _ => rfl
  | x :: a, y :: b, h => by simp at h; simp [zip_map_snd h]

theorem inLayout_mem {xs : List PInst} {a : Info} (h : a ∈ Spec.inLayout xs) : a ∈ Spec.info Eff.none xs := by
  simp only [Spec.inLayout, List.mem_map, mem_sort] at h
  obtain ⟨p, hp, rfl⟩ := h
  exact (List.of_mem_zip hp).2

/-- A stream in the order of the layout is not reordered. -/
theorem inLayout_inOrder {xs : List PInst} (h : Spec.InOrder xs) : Spec.inLayout xs = Spec.info Eff.none xs := by
  have hlen := info_length xs Ctx.start Eff.none
  unfold Spec.inLayout
  rw [sort_sorted, zip_map_snd hlen]
  rw [← List.pairwise_map (R := fun a b : Rank => a.le b = true), zip_map_fst hlen]
  exact h

/-! ## Writing -/

theorem written_eq (c : Cfg) : ∀ (l : List Instr) (seen : List (List Word)),
    writtenI c seen l = Spec.written c.skipNop c.filter seen (l.map infoOf)
  | [], _ => rfl
  | i :: l, seen => by
    simp only [writtenI, List.map_cons, Spec.written, written_eq c l]
    have hi : (infoOf i).inst = i.inst := rfl
    rw [hi]
    by_cases hn : c.skipNop = true ∧ i.inst.op = .nop
    · rw [if_pos hn]
      simp [keeps, seen', hn]
    · rw [if_neg hn]
      have hn' : (c.skipNop && decide (i.inst.op = .nop)) = false := by
        by_cases h1 : c.skipNop = true
        · simp only [h1, true_and] at hn; simp [hn]
        · simp [h1]
      by_cases ha : c.filter = true ∧ i.inst.op = .annotation true
      · rw [if_pos ha]
        by_cases hs : i.inst.words ∈ seen
        · rw [if_pos hs]
          have hc : seen.contains i.inst.words = true := by simpa using hs
          have h1 : keeps c seen i.inst = false := by
            unfold keeps
            rw [Bool.and_eq_false_iff]
            left
            rw [hc]
            simp [ha]
          have h2 : seen' c seen i.inst = seen := by
            unfold seen'
            rw [if_neg]
            intro h
            exact h.2.2 hc
          rw [h1, h2]; rfl
        · rw [if_neg hs]
          have hc : seen.contains i.inst.words = false := by simpa using hs
          have h1 : keeps c seen i.inst = true := by
            unfold keeps
            rw [hc, hn']
            simp
          have h2 : seen' c seen i.inst = i.inst.words :: seen := by
            unfold seen'
            rw [if_pos ⟨ha.1, ha.2, by rw [hc]; simp⟩]
          rw [h1, h2]; rfl
      · rw [if_neg ha]
        have h1 : keeps c seen i.inst = true := by
          unfold keeps
          have : (c.filter && decide (i.inst.op = .annotation true)) = false := by
            by_cases h1 : c.filter = true
            · simp only [h1, true_and] at ha; simp [ha]
            · simp [h1]
          rw [this, hn']
          simp
        have h2 : seen' c seen i.inst = seen := by
          unfold seen'
          rw [if_neg]
          intro h
          exact ha ⟨h.1, h.2.1⟩
        rw [h1, h2]; rfl

theorem LBody.all : ∀ {is : List Instr} {am : Option (Option Key)}, LBody P HS HO am is → ∀ i ∈ is, LInOk P HS HO i
  | [], _, h, _, _ => h.elim
  | i :: is, am, h, j, hj => by
    obtain ⟨h1, _, h3⟩ := h
    rcases List.mem_cons.1 hj with rfl | hj
    · exact h1
    · split at h3
      · subst h3; simp at hj
      · exact LBody.all h3 j hj

theorem opens_of : ∀ {is : List Instr} {rg : Bool}, (∀ i ∈ is, (∀ l ∈ i.lines, l.inst.isOpLineInst = false) ∧
    (i.inst.op = .variable ∨ i.inst.op = .phi → i.scope = noScope)) → Opens rg is
  | [], _, _ => trivial
  | i :: is, rg, h => by
    have := h i (by simp)
    refine ⟨fun _ => ⟨fun l hl ho => ?_, this.2⟩, opens_of fun j hj => h j (by simp [hj])⟩
    rw [this.1 l hl] at ho; cases ho

theorem OkSeq.fn {c : Cfg} (hP : NoClash P) (hd : DbgOk c ∨ ¬ HS) {f : Fn} (hf : FnBody P HS HO f.body)
    (ht : ∀ i ∈ f.fin.toList ++ f.nonSem, OutOk P i)
    (ho : c.cl100 = true ∨ ¬ HS ∨ (¬ HO ∧ ∀ i ∈ f.instrs, i.inst.op = .variable ∨ i.inst.op = .phi → i.scope = noScope)) :
    OkSeq P c f.instrs := by
  have e : f.instrs = ([f.body.defn] ++ f.body.params ++ f.body.header) ++ f.body.blocks.flatten ++ (f.fin.toList ++ f.nonSem) := by
    simp [Fn.instrs]
  rw [e]
  refine (OkSeq.append (OkSeq.all hP ?_) (OkSeq.flat ?_)).append (OkSeq.all hP ht)
  · intro i hi
    simp only [List.mem_append, List.mem_singleton] at hi
    rcases hi with (rfl | hi) | hi
    · exact hf.defn
    · exact hf.params i hi
    · exact hf.header i hi
  · intro b hb
    obtain ⟨l, body, rfl, h1, h2, h3⟩ := hf.blocks b hb
    refine OkSeq.block hP ⟨l, body, rfl, h1, h2, h3.body hd ?_⟩
    rcases ho with ho | ho | ⟨ho, hv⟩
    · exact .inl ho
    · exact .inr (h3.opens ho)
    · right
      apply opens_of
      intro i hi
      refine ⟨?_, ?_⟩
      · intro l' hl'
        cases hh : l'.inst.isOpLineInst with
        | false => rfl
        | true => exact absurd ((h3.all i hi).ops l' hl' hh) ho
      · apply hv
        simp only [Fn.instrs, List.mem_append, List.mem_flatten]
        exact .inl (.inl (.inr ⟨l :: body, hb, by simp [hi]⟩))

theorem finalCtx_graphs : ∀ (xs : List PInst) (c : Ctx), c.graphs = 0 → (Spec.finalCtx c xs).graphs ≠ 0 →
    ∃ x ∈ xs, x.op = .graph
  | [], c, h, h' => absurd h h'
  | x :: xs, c, h, h' => by
    by_cases ho : x.op = .graph
    · exact ⟨x, by simp, ho⟩
    · have : (c.after x).graphs = 0 := by
        unfold Ctx.after
        split <;> simp_all
      obtain ⟨y, hy, h2⟩ := finalCtx_graphs xs (c.after x) this h'
      exact ⟨y, by simp [hy], h2⟩

theorem fst12 {m : Mod} {s : LState} {a : Info} (h : ((12, 0), a) ∈ flat (segs s)) : s.m.debugInfo ≠ [] := by
  simp only [flat, List.mem_flatMap, List.mem_map] at h
  obtain ⟨p, hp, i, hi, he⟩ := h
  have hr : p.1 = (12, 0) := congrArg Prod.fst he
  rw [segs_eq] at hp
  rcases List.mem_append.1 hp with hp | hp
  · simp only [globalSegs, List.mem_cons, List.not_mem_nil, or_false] at hp
    rcases hp with rfl | rfl | rfl | rfl | rfl | rfl | rfl | rfl | rfl | rfl | rfl | rfl | rfl
    all_goals first
      | (exact List.ne_nil_of_mem hi)
      | (exfalso; simp at hr)
  · have := restSegs_ranks hp
    rw [hr] at this
    simp at this

/-- A loaded module can be emitted, and what is emitted says the same. -/
theorem reload_aux {bound maxBound b0 : Word} {xs : List PInst} {s : LState} (hr : Spec.Regular xs) (c : Cfg)
    (he : Spec.Emittable c.cl100 xs) (h : addAll (LState.init bound maxBound true) xs = some s) :
    (endModule s).content.map infoOf = Spec.inLayout xs ∧
    ∃ out b', emit c b0 (endModule s) = some (out, b') ∧
      Spec.info Eff.none out = Spec.written c.skipNop c.filter [] (Spec.inLayout xs) := by
  obtain ⟨e, hi, hfl⟩ := load_spec hr h
  have hfn : s.fn = none := by
    have := hi.rel.inFn; rw [hr.complete.1] at this
    cases hh : s.fn with
    | none => rfl
    | some f => rw [hh] at this; cases this
  have hgr : s.gr = none := by
    have := hi.rel.inGraph; rw [hr.complete.2] at this
    cases hh : s.gr with
    | none => rfl
    | some f => rw [hh] at this; cases this
  have hblk := hi.rel.blkFn hfn
  have hcont : (endModule s).content.map infoOf = Spec.inLayout xs := by
    rw [← segs_content hfn hgr, ← flat_map_snd, hfl]; rfl
  refine ⟨hcont, ?_⟩
  have hM := endModule_closed hfn
  have hP : NoClash (lineKeys xs) := by
    rintro a b ⟨x, hx, hxl, rfl⟩ ⟨y, hy, hyl, rfl⟩ hpre
    exact he.lines x hx y hy hxl hyl hpre
  have hd : DbgOk { c with dbg := ((endModule s).debugInfo.head?).map (·.inst) } ∨ ¬ hasScope xs := by
    by_cases hs : hasScope xs
    · left
      obtain ⟨p, hp, q1, q2, q3, f, set, k, q4, q5⟩ := he.debug hs
      have hmem : Spec.place p.1 p.2 ∈ Spec.places Ctx.start xs := by
        simp only [Spec.places, List.mem_map, List.mem_filter]
        exact ⟨p, ⟨hp, by simp [q3]⟩, rfl⟩
      have hpl : Spec.place p.1 p.2 = (12, 0) := by
        rw [place_default (by rw [q4]; rfl)]
        simp [q1, q2, q4, Spec.section_, q5]
      rw [hpl] at hmem
      have hlen := info_length xs Ctx.start Eff.none
      obtain ⟨a, ha⟩ : ∃ a, ((12, 0), a) ∈ (Spec.places Ctx.start xs).zip (Spec.info Eff.none xs) := by
        rw [← zip_map_fst hlen] at hmem
        obtain ⟨q, hq, e⟩ := List.mem_map.1 hmem
        exact ⟨q.2, by rw [← e]; exact hq⟩
      have : s.m.debugInfo ≠ [] := by
        refine fst12 (m := s.m) (a := a) ?_
        rw [hfl, mem_sort]; exact ha
      cases hdi : s.m.debugInfo with
      | nil => exact absurd hdi this
      | cons i rest =>
        obtain ⟨f', set', k', e1, e2⟩ := hi.wf.dbg i (by rw [hdi]; simp)
        refine ⟨f', set', k', i.inst.words, ?_, e2⟩
        rw [hM]
        simp only [hdi, List.head?_cons, Option.map_some, Option.some.injEq]
        rw [← e1]
    · exact .inr hs
  have hgl : ∀ i ∈ (endModule s).inGraphs, OutOk (lineKeys xs) i ∧ i.lines = [] := by
    intro i hi'
    rw [hM] at hi'
    simp only [Mod.inGraphs, List.mem_flatMap] at hi'
    obtain ⟨g, hg, hi'⟩ := hi'
    obtain ⟨k1, k2⟩ := hi.wf.graphs g hg i hi'
    refine ⟨k1, ?_⟩
    by_cases hn : i.lines = []
    · exact hn
    · exfalso
      have hne : (Spec.finalCtx Ctx.start xs).graphs ≠ 0 := by
        rw [hi.rel.graphs]
        cases hgs : s.m.graphs with
        | nil => rw [hgs] at hg; simp at hg
        | cons a l => simp
      obtain ⟨x, hx, hxl⟩ := k2 hn
      rw [he.graphs (finalCtx_graphs xs _ rfl hne) x hx] at hxl
      cases hxl
  generalize hc : ({ c with dbg := ((endModule s).debugInfo.head?).map (·.inst) } : Cfg) = c' at hd
  have hc1 : c'.cl100 = c.cl100 := by rw [← hc]
  have hc2 : c'.skipNop = c.skipNop := by rw [← hc]
  have hc3 : c'.filter = c.filter := by rw [← hc]
  have hopen : c'.cl100 = true ∨ ¬ hasScope xs ∨ (¬ hasOpLine xs ∧
      ∀ i ∈ (endModule s).content, i.inst.op = .variable ∨ i.inst.op = .phi → i.scope = noScope) := by
    rw [hc1]
    rcases he.opens with h | h | ⟨h, h'⟩
    · exact .inl h
    · right; left
      rintro ⟨x, hx, hxs⟩
      rw [h x hx] at hxs; cases hxs
    · right; right
      refine ⟨?_, ?_⟩
      · rintro ⟨x, hx, hxs⟩
        rw [h x hx] at hxs; cases hxs
      · intro i hi' ho
        exact h' (infoOf i) (inLayout_mem (by rw [← hcont]; exact List.mem_map_of_mem hi')) ho
  have hseq : OkSeq (lineKeys xs) c' (endModule s).content := by
    unfold Mod.content
    refine OkSeq.append ?_ (OkSeq.all hP fun i hi' => (hgl i hi').1)
    have hb : (endModule s).beforeGraphs = (globalSegs s.m).flatMap (·.2) ++ (s.m.fns.map Fn.instrs).flatten ++ s.m.graphEntryPoints := by
      rw [hM]
      simp [globalSegs, Mod.beforeGraphs, List.flatMap_def]
    rw [hb]
    refine (OkSeq.append (OkSeq.all hP ?_) (OkSeq.flat ?_)).append (OkSeq.all hP hi.wf.geps)
    · intro i hi'
      simp only [List.mem_flatMap] at hi'
      obtain ⟨p, hp, hi'⟩ := hi'
      exact hi.wf.glob p hp i hi'
    · intro l hl
      obtain ⟨f, hf, rfl⟩ := List.mem_map.1 hl
      obtain ⟨k1, k2⟩ := hi.wf.fns f hf
      refine OkSeq.fn hP hd k1 k2 ?_
      rcases hopen with h | h | ⟨h, h'⟩
      · exact .inl h
      · exact .inr (.inl h)
      · refine .inr (.inr ⟨h, fun i hi' => h' i ?_⟩)
        unfold Mod.content
        rw [hb]
        simp only [List.mem_append, List.mem_flatten]
        exact .inl (.inl (.inr ⟨_, hl, hi'⟩))
  obtain ⟨out, e1, o1, w1, w2, w3, w4⟩ := hseq (E.init b0) Eff.none ⟨⟨rfl, by simp [E.init]⟩, rfl, rfl, .inr rfl⟩
  obtain ⟨out2, e2, o2, v1, v2, v3, v4, v5⟩ := write_lines_out (c := c') hP s.lines e1 o1 (by
    intro l hl
    exact ⟨(hi.line.lines l hl).1, (hi.line.lines l hl).2, hi.line.linesOut hblk l hl⟩) w3
  have hitems : (endModule s).items = (endModule s).content.flatMap Instr.items ++ s.lines.map .line := by
    unfold Mod.items Mod.content
    have ht : (endModule s).trailing = s.lines := by rw [hM]
    have hm : ∀ l : List Instr, (∀ i ∈ l, i.lines = []) → l.map Item.inst = l.flatMap Instr.items := by
      intro l
      induction l with
      | nil => intro _; rfl
      | cons i l ih =>
        intro h
        rw [List.map_cons, List.flatMap_cons, ih fun j hj => h j (by simp [hj])]
        simp [Instr.items, h i (by simp)]
    rw [List.flatMap_append, hm _ fun i hi' => (hgl i hi').2, ht]
  refine ⟨out ++ out2, e2.bound, ?_, ?_⟩
  · unfold emit
    rw [hc, hitems, bind_some w1 v1]
    rfl
  · rw [info_eq_run, run_append, w2]
    simp only [v2, List.append_nil]
    rw [written_eq, hcont, hc2, hc3]
    rfl

end Verif.Loader
