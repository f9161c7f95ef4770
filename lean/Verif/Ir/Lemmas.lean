import Verif.Ir.Model
set_option linter.unusedSimpArgs false
set_option linter.unusedVariables false

namespace Verif.Ir

/-- `t` runs like the list `xs`: given a relation between the state and what is still to be
visited that the callback preserves, and under which it acts as `g`. -/
structure Runs {σ α : Type} (R : σ → List Inst → Prop) (run : σ → α → σ × α) (pure : α → α)
    (visit : α → List Inst) (a : α) : Prop where
  out : ∀ s rest, R s (visit a ++ rest) → (run s a).2 = pure a ∧ R (run s a).1 rest

variable {σ : Type} {R : σ → List Inst → Prop} {f : σ → Inst → σ × Inst} {g : Inst → Inst}

theorem runs_inst (h : ∀ s i rest, R s (i :: rest) → (f s i).2 = g i ∧ R (f s i).1 rest) (i : Inst) :
    Runs R f g (fun i => [i]) i := ⟨fun s rest hr => h s i rest hr⟩

theorem runs_list {α : Type} {run : σ → α → σ × α} {pure : α → α} {visit : α → List Inst}
    (l : List α) (h : ∀ a ∈ l, Runs R run pure visit a) :
    Runs R (mapAcc run) (List.map pure) (List.flatMap visit) l := by
  induction l with
  | nil => exact ⟨fun s rest hr => ⟨rfl, by simpa [mapAcc] using hr⟩⟩
  | cons a l ih =>
    refine ⟨fun s rest hr => ?_⟩
    rw [List.flatMap_cons, List.append_assoc] at hr
    obtain ⟨h1, h2⟩ := (h a (by simp)).out s _ hr
    obtain ⟨h3, h4⟩ := (ih (fun b hb => h b (by simp [hb]))).out _ _ h2
    exact ⟨by simp [mapAcc, h1, h3], h4⟩

theorem runs_insts (l : List Inst) (h : ∀ a ∈ l, Runs R f g (fun i => [i]) a) :
    Runs R (mapAcc f) (List.map g) id l := by
  refine ⟨fun s rest hr => (runs_list l h).out s rest ?_⟩
  have : List.flatMap (fun i => [i]) l = l := by induction l <;> simp_all
  rw [this]; exact hr

theorem runs_opt (o : Option Inst) (h : ∀ a, o = some a → Runs R f g (fun i => [i]) a) :
    Runs R (mapAccOpt f) (Option.map g) Option.toList o := by
  cases o with
  | none => exact ⟨fun s rest hr => ⟨rfl, by simpa [mapAccOpt] using hr⟩⟩
  | some a =>
    refine ⟨fun s rest hr => ?_⟩
    obtain ⟨h1, h2⟩ := (h a rfl).out s rest hr
    exact ⟨by simp [mapAccOpt, h1], h2⟩

variable (h : ∀ s i rest, R s (i :: rest) → (f s i).2 = g i ∧ R (f s i).1 rest)
include h

theorem runs_insts' (l : List Inst) : Runs R (mapAcc f) (List.map g) id l :=
  runs_insts l fun a _ => runs_inst h a

theorem runs_opt' (o : Option Inst) : Runs R (mapAccOpt f) (Option.map g) Option.toList o :=
  runs_opt o fun a _ => runs_inst h a

theorem runs_block (b : Block) : Runs R (Block.mapAcc f) (Block.map g) Block.visit b := by
  refine ⟨fun s rest hr => ?_⟩
  obtain ⟨h1, h2⟩ := h s b.label (b.insts ++ rest) (by simpa [Block.visit] using hr)
  obtain ⟨h3, h4⟩ := (runs_insts' h b.insts).out _ _ h2
  exact ⟨by simp [Block.mapAcc, Block.map, h1, h3], h4⟩

theorem runs_function (x : Function) : Runs R (Function.mapAcc f) (Function.map g) Function.visit x := by
  refine ⟨fun s rest hr => ?_⟩
  simp only [Function.visit, List.cons_append, List.append_assoc] at hr
  obtain ⟨a1, b1⟩ := h _ _ _ hr
  obtain ⟨a2, b2⟩ := (runs_insts' h x.params).out _ _ b1
  obtain ⟨a3, b3⟩ := (runs_insts' h x.debugHeader).out _ _ b2
  obtain ⟨a4, b4⟩ := (runs_list x.blocks (fun b _ => runs_block h b)).out _ _ b3
  obtain ⟨a5, b5⟩ := (runs_opt' h x.endInst).out _ _ b4
  obtain ⟨a6, b6⟩ := (runs_insts' h x.nonSemantic).out _ _ b5
  exact ⟨by simp [Function.mapAcc, Function.map, a1, a2, a3, a4, a5, a6], b6⟩

theorem runs_graph (x : Graph) : Runs R (Graph.mapAcc f) (Graph.map g) Graph.visit x := by
  refine ⟨fun s rest hr => ?_⟩
  simp only [Graph.visit, List.cons_append, List.append_assoc] at hr
  obtain ⟨a1, b1⟩ := h _ _ _ hr
  obtain ⟨a2, b2⟩ := (runs_insts' h x.inputs).out _ _ b1
  obtain ⟨a3, b3⟩ := (runs_insts' h x.insts).out _ _ b2
  obtain ⟨a4, b4⟩ := (runs_insts' h x.outputs).out _ _ b3
  obtain ⟨a5, b5⟩ := h _ _ _ b4
  obtain ⟨a6, b6⟩ := (runs_insts' h x.nonSemantic).out _ _ b5
  exact ⟨by simp [Graph.mapAcc, Graph.map, a1, a2, a3, a4, a5, a6], b6⟩

end Verif.Ir

namespace Verif.Ir

variable {σ : Type} {R : σ → List Inst → Prop} {f f' : σ → Inst → σ × Inst} {g : Inst → Inst}

theorem mapAcc_congr {α : Type} {f f' : σ → α → σ × α} (l : List α) (h : ∀ a ∈ l, ∀ s, f s a = f' s a) :
    ∀ s, mapAcc f s l = mapAcc f' s l := by
  induction l with
  | nil => intro s; rfl
  | cons a l ih =>
    intro s
    simp only [mapAcc, h a (by simp) s, ih (fun b hb => h b (by simp [hb]))]

theorem Graph.mapAcc_congr (x : Graph) (h : ∀ a ∈ x.visit, ∀ s, f s a = f' s a) (s : σ) :
    Graph.mapAcc f s x = Graph.mapAcc f' s x := by
  simp only [Graph.visit, List.mem_cons, List.mem_append] at h
  unfold Graph.mapAcc
  simp only [h x.defInst (by simp), h x.endInst (by simp),
    Ir.mapAcc_congr x.inputs (fun a ha => h a (by simp [ha])),
    Ir.mapAcc_congr x.insts (fun a ha => h a (by simp [ha])),
    Ir.mapAcc_congr x.outputs (fun a ha => h a (by simp [ha])),
    Ir.mapAcc_congr x.nonSemantic (fun a ha => h a (by simp [ha]))]

theorem Module.mapAcc_congr (m : Module) (h : ∀ x ∈ m.graphs, ∀ a ∈ x.visit, ∀ s, f s a = f' s a) (s : σ) :
    Module.mapAcc f' f s m = Module.mapAcc f' f' s m := by
  unfold Module.mapAcc
  simp only [Ir.mapAcc_congr m.graphs (fun x hx => Graph.mapAcc_congr x (h x hx))]

theorem runs_module (h : ∀ s i rest, R s (i :: rest) → (f s i).2 = g i ∧ R (f s i).1 rest) (m : Module) :
    Runs R (Module.mapAcc f f) (Module.map g) Module.visit m := by
  refine ⟨fun s rest hr => ?_⟩
  simp only [Module.visit, List.append_assoc] at hr
  obtain ⟨a1, b1⟩ := (runs_insts' h m.capabilities).out _ _ hr
  obtain ⟨a2, b2⟩ := (runs_insts' h m.extensions).out _ _ b1
  obtain ⟨a3, b3⟩ := (runs_insts' h m.imports).out _ _ b2
  obtain ⟨a4, b4⟩ := (runs_opt' h m.memoryModel).out _ _ b3
  obtain ⟨a5, b5⟩ := (runs_opt' h m.samplerMode).out _ _ b4
  obtain ⟨a6, b6⟩ := (runs_insts' h m.entryPoints).out _ _ b5
  obtain ⟨a7, b7⟩ := (runs_insts' h m.graphEntryPoints).out _ _ b6
  obtain ⟨a8, b8⟩ := (runs_insts' h m.executionModes).out _ _ b7
  obtain ⟨a9, b9⟩ := (runs_insts' h m.debugs1).out _ _ b8
  obtain ⟨a10, b10⟩ := (runs_insts' h m.debugs2).out _ _ b9
  obtain ⟨a11, b11⟩ := (runs_insts' h m.debugs3).out _ _ b10
  obtain ⟨a12, b12⟩ := (runs_insts' h m.debugInfo).out _ _ b11
  obtain ⟨a13, b13⟩ := (runs_insts' h m.annotations).out _ _ b12
  obtain ⟨a14, b14⟩ := (runs_insts' h m.typesValues).out _ _ b13
  obtain ⟨a15, b15⟩ := (runs_list m.functions (fun b _ => runs_function h b)).out _ _ b14
  obtain ⟨a16, b16⟩ := (runs_list m.graphs (fun b _ => runs_graph h b)).out _ _ b15
  exact ⟨by simp only [Module.mapAcc, Module.map, a1, a2, a3, a4, a5, a6, a7, a8, a9, a10, a11, a12, a13,
    a14, a15, a16], b16⟩

/-! ### `map` and `visit` -/

theorem Block.visit_map (b : Block) : (b.map g).visit = b.visit.map g := rfl

theorem Function.visit_map (x : Function) : (x.map g).visit = x.visit.map g := by
  have : x.blocks.flatMap (fun b => (b.map g).visit) = (x.blocks.flatMap Block.visit).map g := by
    rw [List.map_flatMap]; rfl
  simp [Function.visit, Function.map, List.flatMap_map, this]
  cases x.endInst <;> rfl

theorem Graph.visit_map (x : Graph) : (x.map g).visit = x.visit.map g := by
  simp [Graph.visit, Graph.map]

theorem Module.visit_map (m : Module) : (m.map g).visit = m.visit.map g := by
  have h1 : m.functions.flatMap (fun b => (b.map g).visit) = (m.functions.flatMap Function.visit).map g := by
    rw [List.map_flatMap]; congr 1; funext x; exact Function.visit_map x
  have h2 : m.graphs.flatMap (fun b => (b.map g).visit) = (m.graphs.flatMap Graph.visit).map g := by
    rw [List.map_flatMap]; congr 1; funext x; exact Graph.visit_map x
  simp [Module.visit, Module.map, List.flatMap_map, h1, h2]
  cases m.memoryModel <;> cases m.samplerMode <;> rfl

theorem map_congr_visit {α : Type} {visit : α → List Inst} {F G : α → α} (l : List α)
    (h : ∀ a ∈ l, F a = G a) : l.map F = l.map G := List.map_congr_left h

theorem Block.map_congr {k : Inst → Inst} (b : Block) (h : ∀ i ∈ b.visit, g i = k i) : b.map g = b.map k := by
  simp only [Block.visit, List.mem_cons] at h
  simp only [Block.map, h b.label (by simp), List.map_congr_left (fun i hi => h i (Or.inr hi))]

theorem optMap_congr {k : Inst → Inst} (o : Option Inst) (h : ∀ i ∈ o.toList, g i = k i) : o.map g = o.map k := by
  cases o with
  | none => rfl
  | some a => simp [h a (by simp)]

theorem Function.map_congr {k : Inst → Inst} (x : Function) (h : ∀ i ∈ x.visit, g i = k i) : x.map g = x.map k := by
  simp only [Function.visit, List.mem_cons, List.mem_append, List.mem_flatMap] at h
  simp only [Function.map, h x.defInst (by simp), List.map_congr_left (fun i (hi : i ∈ x.params) => h i (by simp [hi])),
    List.map_congr_left (fun i (hi : i ∈ x.debugHeader) => h i (by simp [hi])),
    List.map_congr_left (fun b (hb : b ∈ x.blocks) => Block.map_congr b (fun i hi => h i (by
      right; right; right; left; exact ⟨b, hb, hi⟩))),
    optMap_congr x.endInst (fun i hi => h i (by simp only [hi]; simp)),
    List.map_congr_left (fun i (hi : i ∈ x.nonSemantic) => h i (by simp [hi]))]

theorem Graph.map_congr {k : Inst → Inst} (x : Graph) (h : ∀ i ∈ x.visit, g i = k i) : x.map g = x.map k := by
  simp only [Graph.visit, List.mem_cons, List.mem_append] at h
  simp only [Graph.map, h x.defInst (by simp), h x.endInst (by simp),
    List.map_congr_left (fun i (hi : i ∈ x.inputs) => h i (by simp [hi])),
    List.map_congr_left (fun i (hi : i ∈ x.insts) => h i (by simp [hi])),
    List.map_congr_left (fun i (hi : i ∈ x.outputs) => h i (by simp [hi])),
    List.map_congr_left (fun i (hi : i ∈ x.nonSemantic) => h i (by simp [hi]))]

theorem Module.map_congr {k : Inst → Inst} (m : Module) (h : ∀ i ∈ m.visit, g i = k i) : m.map g = m.map k := by
  simp only [Module.visit, List.mem_append, List.mem_flatMap] at h
  simp only [Module.map,
    List.map_congr_left (fun i (hi : i ∈ m.capabilities) => h i (by simp [hi])),
    List.map_congr_left (fun i (hi : i ∈ m.extensions) => h i (by simp [hi])),
    List.map_congr_left (fun i (hi : i ∈ m.imports) => h i (by simp [hi])),
    optMap_congr m.memoryModel (fun i hi => h i (by simp only [hi]; simp)),
    optMap_congr m.samplerMode (fun i hi => h i (by simp only [hi]; simp)),
    List.map_congr_left (fun i (hi : i ∈ m.entryPoints) => h i (by simp [hi])),
    List.map_congr_left (fun i (hi : i ∈ m.graphEntryPoints) => h i (by simp [hi])),
    List.map_congr_left (fun i (hi : i ∈ m.executionModes) => h i (by simp [hi])),
    List.map_congr_left (fun i (hi : i ∈ m.debugs1) => h i (by simp [hi])),
    List.map_congr_left (fun i (hi : i ∈ m.debugs2) => h i (by simp [hi])),
    List.map_congr_left (fun i (hi : i ∈ m.debugs3) => h i (by simp [hi])),
    List.map_congr_left (fun i (hi : i ∈ m.debugInfo) => h i (by simp [hi])),
    List.map_congr_left (fun i (hi : i ∈ m.annotations) => h i (by simp [hi])),
    List.map_congr_left (fun i (hi : i ∈ m.typesValues) => h i (by simp [hi])),
    List.map_congr_left (fun x (hx : x ∈ m.functions) => Function.map_congr x (fun i hi => h i (by
      iterate 14 right
      left; exact ⟨x, hx, hi⟩))),
    List.map_congr_left (fun x (hx : x ∈ m.graphs) => Graph.map_congr x (fun i hi => h i (by
      iterate 15 right
      exact ⟨x, hx, hi⟩)))]

theorem optMap_id (o : Option Inst) : o.map id = o := by cases o <;> rfl

theorem Module.map_id (m : Module) : m.map id = m := by
  have hb : (Block.map id : Block → Block) = id := by funext b; simp [Block.map]
  have hf : (Function.map id : Function → Function) = id := by
    funext x; simp [Function.map, hb, optMap_id]
  have hg : (Graph.map id : Graph → Graph) = id := by funext x; simp [Graph.map]
  simp [Module.map, hf, hg, optMap_id]

end Verif.Ir
