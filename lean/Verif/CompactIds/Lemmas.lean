import Verif.CompactIds.Model
import Verif.Ir.Lemmas
set_option linter.unusedSimpArgs false
set_option linter.unusedVariables false

namespace Verif.CompactIds
open Verif.StringLit (Word)
open Verif.Binary (OT)
open Verif.Ir

namespace Spec

/-- Ids of an operand. -/
def opIds (o : Operand) : List Word := if o.type.isId then o.words else []

/-- A debug scope field: 0 is not an id. -/
def scopeIds (w : Word) : List Word := if w = 0 then [] else [w]

/-- Ids of an instruction, in order: operands, debug scope, inlined-at. -/
def coreIds (c : Core) : List Word := c.operands.flatMap opIds ++ (scopeIds c.scope ++ scopeIds c.inlinedAt)

/-- Line instructions precede the instruction they are attached to. -/
def instIds (i : Inst) : List Word := i.lines.flatMap coreIds ++ coreIds i.core

/-- All ids of a module, in module order. -/
def ids (m : Module) : List Word := m.visit.flatMap instIds

/-- Renaming ids by `f`. -/
def renameOp (f : Word → Word) (o : Operand) : Operand :=
  if o.type.isId then ⟨o.type, o.words.map f⟩ else o
def renameScope (f : Word → Word) (w : Word) : Word := if w = 0 then w else f w
def renameCore (f : Word → Word) (c : Core) : Core :=
  ⟨c.opcode, c.operands.map (renameOp f), renameScope f c.scope, renameScope f c.inlinedAt⟩
def renameInst (f : Word → Word) (i : Inst) : Inst := ⟨renameCore f i.core, i.lines.map (renameCore f)⟩

/-- `d` lists the distinct elements of `l` in order of first appearance. -/
structure Firsts (l d : List Word) : Prop where
  nodup : d.Nodup
  mem : ∀ x, x ∈ d ↔ x ∈ l
  order : d.Pairwise (fun a b => l.idxOf a < l.idxOf b)

end Spec
open Spec

def add (d : List Word) (x : Word) : List Word := if x ∈ d then d else d ++ [x]
def adds (d l : List Word) : List Word := l.foldl add d
def val (d : List Word) (x : Word) : Word := BitVec.ofNat 32 (d.idxOf x) + 1#32
def M (d : List Word) : List (Word × Word) := d.zipIdx.map fun p => (p.1, BitVec.ofNat 32 p.2 + 1#32)
def Ext (d D : List Word) : Prop := ∃ e, D = d ++ e

theorem Ext.refl (d : List Word) : Ext d d := ⟨[], by simp⟩
theorem Ext.trans {a b c : List Word} (h : Ext a b) (h' : Ext b c) : Ext a c := by
  obtain ⟨e, rfl⟩ := h; obtain ⟨e', rfl⟩ := h'; exact ⟨e ++ e', by simp⟩
theorem ext_add (d : List Word) (x : Word) : Ext d (add d x) := by
  unfold add; split
  · exact Ext.refl _
  · exact ⟨[x], rfl⟩
theorem ext_adds (l d : List Word) : Ext d (adds d l) := by
  induction l generalizing d with
  | nil => exact Ext.refl _
  | cons x l ih => exact (ext_add d x).trans (ih _)
theorem adds_append (d a b : List Word) : adds d (a ++ b) = adds (adds d a) b := by simp [adds]

theorem mem_add (d : List Word) (x y : Word) : y ∈ add d x ↔ y ∈ d ∨ y = x := by
  unfold add; split
  · rename_i h
    constructor
    · exact Or.inl
    · rintro (h' | rfl)
      · exact h'
      · exact h
  · simp

theorem mem_adds (l d : List Word) (y : Word) : y ∈ adds d l ↔ y ∈ d ∨ y ∈ l := by
  induction l generalizing d with
  | nil => simp [adds]
  | cons x l ih =>
    have := ih (add d x)
    unfold adds at this ⊢
    rw [List.foldl_cons, this, mem_add, List.mem_cons]
    constructor
    · rintro ((h | h) | h) <;> simp [h]
    · rintro (h | h | h) <;> simp [h]

theorem val_ext {d D : List Word} (h : Ext d D) {x : Word} (hx : x ∈ d) : val D x = val d x := by
  obtain ⟨e, rfl⟩ := h
  simp [val, List.idxOf_append, hx]

theorem lookup_zip (d : List Word) (x : Word) (k : Nat) :
    ((d.zipIdx k).map fun p => (p.1, BitVec.ofNat 32 p.2 + 1#32)).lookup x =
      if x ∈ d then some (BitVec.ofNat 32 (k + d.idxOf x) + 1#32) else none := by
  induction d generalizing k with
  | nil => simp
  | cons a d ih =>
    simp only [List.zipIdx_cons, List.map_cons, List.lookup_cons, List.mem_cons]
    by_cases h : x = a
    · subst h; simp
    · have hb : (x == a) = false := by simp [h]
      rw [hb]
      simp only [Bool.false_eq_true, if_false, ih]
      have : (a :: d).idxOf x = d.idxOf x + 1 := by
        rw [List.idxOf_cons]
        have : (a == x) = false := by simp; exact fun h' => h h'.symm
        simp [this]
      rw [this]
      simp only [h, false_or]
      split
      · congr 3; omega
      · rfl

theorem lookup_M (d : List Word) (x : Word) : (M d).lookup x = if x ∈ d then some (val d x) else none := by
  unfold M val
  rw [lookup_zip]; simp

theorem M_length (d : List Word) : (M d).length = d.length := by simp [M]

theorem remap_M (d : List Word) (x : Word) : remap (M d) x = (M (add d x), val (add d x) x) := by
  unfold remap
  rw [lookup_M]
  by_cases h : x ∈ d
  · simp [h, add]
  · simp only [h, if_false, add, M_length]
    refine Prod.ext ?_ ?_
    · simp [M, List.zipIdx_append]
    · simp [val, List.idxOf_append, h]

/-! ### Steps -/

/-- `run` acts as the renaming by the final numbering `D` and records the ids. -/
def Step {α : Type} [DecidableEq α] (D : List Word) (run : St → α → St × α) (ids : α → List Word)
    (ren : α → α) (a : α) : Prop :=
  ∀ d b, Ext (adds d (ids a)) D →
    run ⟨M d, b, false⟩ a = (⟨M (adds d (ids a)), b || decide (ren a ≠ a), false⟩, ren a)

theorem step_list {α : Type} [DecidableEq α] {D : List Word} {run : St → α → St × α}
    {ids : α → List Word} {ren : α → α} (l : List α) (h : ∀ a ∈ l, Step D run ids ren a) :
    Step D (mapAcc run) (List.flatMap ids) (List.map ren) l := by
  induction l with
  | nil => intro d b _; simp [mapAcc, adds]
  | cons a l ih =>
    intro d b he
    rw [List.flatMap_cons, adds_append] at he
    have h1 := h a (by simp) d b ((ext_adds _ _).trans he)
    have h2 := ih (fun x hx => h x (by simp [hx])) (adds d (ids a)) (b || decide (ren a ≠ a)) he
    simp only [mapAcc, h1, h2, List.flatMap_cons, adds_append, List.map_cons]
    congr 2
    simp only [ne_eq, List.cons.injEq, Bool.or_assoc]
    congr 1
    by_cases h3 : ren a = a <;> by_cases h4 : List.map ren l = l <;> simp [h3, h4]

def OpOk (o : Operand) : Prop := o.type.isId = true → o.words.length = 1

theorem step_op {D : List Word} (o : Operand) (h : OpOk o) :
    Step D operandStep opIds (renameOp (val D)) o := by
  intro d b he
  unfold operandStep opIds renameOp
  unfold opIds at he
  by_cases ht : o.type.isId = true
  · simp only [ht, if_true] at he ⊢
    obtain ⟨t, ws⟩ := o
    have hl := h ht
    simp only at hl he ht ⊢
    match ws, hl with
    | [x], _ =>
      have he' : Ext (add d x) D := he
      have hv : val D x = val (add d x) x := val_ext he' ((mem_add _ _ _).2 (Or.inr rfl))
      simp only [remap_M, List.map_cons, List.map_nil, hv, adds, List.foldl_cons, List.foldl_nil]
      congr 3
      simp only [ne_eq, Operand.mk.injEq, List.cons.injEq, and_true, true_and]
      by_cases h' : x = val (add d x) x
      · rw [← h']
      · have h'' : ¬ val (add d x) x = x := fun e => h' e.symm
        simp [h', h'']
  · simp [ht, adds]

theorem step_scope {D : List Word} (w : Word) : Step D scopeStep scopeIds (renameScope (val D)) w := by
  intro d b he
  unfold scopeStep scopeIds renameScope
  unfold scopeIds at he
  by_cases hw : w = 0
  · simp [hw, adds]
  · simp only [hw, if_false] at he
    have he' : Ext (add d w) D := he
    have hv : val D w = val (add d w) w := val_ext he' ((mem_add _ _ _).2 (Or.inr rfl))
    simp only [hw, ne_eq, not_false_eq_true, if_true, if_false, remap_M, adds, List.foldl_cons, List.foldl_nil, hv]
    congr 3
    by_cases h' : w = val (add d w) w
    · rw [← h']
    · have h'' : ¬ val (add d w) w = w := fun e => h' e.symm
      simp [h', h'']

def CoreOk (c : Core) : Prop := ∀ o ∈ c.operands, OpOk o

theorem step_core {D : List Word} (c : Core) (h : CoreOk c) :
    Step D coreStep coreIds (renameCore (val D)) c := by
  intro d b he
  unfold coreIds at he ⊢
  rw [adds_append, adds_append] at he ⊢
  unfold coreStep
  have h1 := step_list c.operands (fun o ho => step_op (D := D) o (h o ho)) d b
    ((ext_adds _ _).trans ((ext_adds _ _).trans he))
  have h2 := step_scope (D := D) c.scope _ (b || decide (List.map (renameOp (val D)) c.operands ≠ c.operands))
    ((ext_adds _ _).trans he)
  simp only [h1, h2]
  have h3 := step_scope (D := D) c.inlinedAt _ ((b || decide (List.map (renameOp (val D)) c.operands ≠ c.operands)) ||
    decide (renameScope (val D) c.scope ≠ c.scope)) he
  simp only [h3, renameCore]
  congr 2
  simp only [ne_eq, Bool.or_assoc]
  congr 1
  obtain ⟨op, os, s, ia⟩ := c
  simp only [Core.mk.injEq, true_and]
  by_cases a1 : List.map (renameOp (val D)) os = os <;> by_cases a2 : renameScope (val D) s = s <;>
    by_cases a3 : renameScope (val D) ia = ia <;> simp [a1, a2, a3]

/-- The line instructions carry the debug scope of their instruction, which
`Instruction::SetDebugScope` (source/opt/instruction.h:695-700) establishes. -/
def LinesOk (i : Inst) : Prop :=
  ∀ l ∈ i.lines, (i.core.scope ≠ 0 → l.scope = i.core.scope) ∧
    (i.core.inlinedAt ≠ 0 → l.inlinedAt = i.core.inlinedAt)

def InstOk (i : Inst) : Prop := CoreOk i.core ∧ (∀ l ∈ i.lines, CoreOk l) ∧ LinesOk i

theorem sync_rename (f : Word → Word) (i : Inst) (h : LinesOk i) (l : Core) (hl : l ∈ i.lines) :
    syncLine i.core (renameCore f i.core) (renameCore f l) = renameCore f l := by
  obtain ⟨h1, h2⟩ := h l hl
  unfold syncLine renameCore
  simp only [Core.mk.injEq, true_and]
  constructor
  · split
    · rename_i hne
      have h0 : i.core.scope ≠ 0 := by
        intro h0; apply hne; simp [renameScope, h0]
      rw [h1 h0]
    · rfl
  · split
    · rename_i hne
      have h0 : i.core.inlinedAt ≠ 0 := by
        intro h0; apply hne; simp [renameScope, h0]
      rw [h2 h0]
    · rfl

theorem step_inst {D : List Word} (i : Inst) (h : InstOk i) :
    Step D instStep instIds (renameInst (val D)) i := by
  intro d b he
  unfold instIds at he ⊢
  rw [adds_append] at he ⊢
  unfold instStep
  have h1 := step_list i.lines (fun o ho => step_core (D := D) o (h.2.1 o ho)) d b
    ((ext_adds _ _).trans he)
  have h2 := step_core (D := D) i.core h.1 _ (b || decide (List.map (renameCore (val D)) i.lines ≠ i.lines)) he
  simp only [h1, h2, renameInst]
  have h3 : (List.map (renameCore (val D)) i.lines).map (syncLine i.core (renameCore (val D) i.core)) =
      List.map (renameCore (val D)) i.lines := by
    rw [List.map_map]
    exact List.map_congr_left (fun l hl => sync_rename _ i h.2.2 l hl)
  rw [h3]
  congr 2
  simp only [ne_eq, Bool.or_assoc]
  congr 1
  obtain ⟨c, ls⟩ := i
  simp only [Inst.mk.injEq]
  by_cases a1 : List.map (renameCore (val D)) ls = ls <;> by_cases a2 : renameCore (val D) c = c <;>
    simp [a1, a2]

theorem graphInstStep_eq (s : St) (i : Inst) (h : i.lines = []) : graphInstStep s i = instStep s i := by
  simp [graphInstStep, instStep, h, mapAcc]

/-! ### The whole module -/

/-- Every id operand has one word, and line instructions carry the scope of their instruction. -/
def ModuleOk (m : Module) : Prop := ∀ i ∈ m.visit, InstOk i

theorem module_run (m : Module) (hok : ModuleOk m) (hh : m.hidden = []) :
    Module.mapAcc instStep graphInstStep ⟨[], false, false⟩ m =
      (⟨M (adds [] (ids m)), decide (m.map (renameInst (val (adds [] (ids m)))) ≠ m), false⟩,
        m.map (renameInst (val (adds [] (ids m))))) := by
  generalize hD : adds [] (ids m) = D
  have hg : ∀ x ∈ m.graphs, ∀ a ∈ x.visit, ∀ s, graphInstStep s a = instStep s a := by
    intro x hx a ha s
    apply graphInstStep_eq
    have : m.graphs.flatMap (fun g => g.visit.flatMap Inst.lines) = [] := by
      unfold Module.hidden at hh; exact (List.append_eq_nil_iff.1 hh).1
    have h1 := List.flatMap_eq_nil_iff.1 this x hx
    exact List.flatMap_eq_nil_iff.1 h1 a ha
  rw [Module.mapAcc_congr m hg]
  let R : St → List Inst → Prop := fun s rest => ∃ done d, done ++ rest = m.visit ∧ s.map = M d ∧
    s.fault = false ∧ adds d (rest.flatMap instIds) = D ∧
    s.modified = decide (done.map (renameInst (val D)) ≠ done)
  have hR : ∀ s i rest, R s (i :: rest) → (instStep s i).2 = renameInst (val D) i ∧ R (instStep s i).1 rest := by
    rintro ⟨sm, sb, sf⟩ i rest ⟨done, d, h1, h2, h3, h4, h5⟩
    simp only at h2 h3 h5
    subst h2 h3
    rw [List.flatMap_cons, adds_append] at h4
    have hi : InstOk i := hok i (by rw [← h1]; simp)
    have := step_inst (D := D) i hi d sb (h4 ▸ ext_adds _ _)
    rw [this]
    refine ⟨rfl, done ++ [i], _, by simpa using h1, rfl, rfl, h4, ?_⟩
    simp only
    rw [h5]
    by_cases a1 : List.map (renameInst (val D)) done = done <;> by_cases a2 : renameInst (val D) i = i <;>
      simp [a1, a2]
  obtain ⟨h1, done, d, h2, h3, h4, h5, h6⟩ := (runs_module hR m).out ⟨[], false, false⟩ []
    ⟨[], [], by simp, rfl, rfl, by simpa [ids] using hD, rfl⟩
  simp only [List.flatMap_nil, adds, List.foldl_nil] at h5
  subst h5
  rw [List.append_nil] at h2
  generalize hr : Module.mapAcc instStep instStep ⟨[], false, false⟩ m = r at h1 h3 h4 h6
  obtain ⟨⟨a, b, c⟩, m'⟩ := r
  simp only at h1 h3 h4 h6
  subst h1 h3 h4 h6
  congr 2
  rw [h2]
  have : (m.visit.map (renameInst (val d)) = m.visit) ↔ m.map (renameInst (val d)) = m := by
    constructor
    · intro h
      have : m.map (renameInst (val d)) = m.map id := by
        apply Module.map_congr
        intro i hi
        obtain ⟨k, hk, rfl⟩ := List.getElem_of_mem hi
        have := congrArg (fun l => l[k]?) h
        simpa [hk] using this
      rw [this, Module.map_id]
    · intro h
      rw [← Module.visit_map, h]
  simp [this]

/-! ### The numbering -/

theorem firsts_adds (l : List Word) : Firsts l (adds [] l) := by
  have key : ∀ l : List Word, Firsts l.reverse (adds [] l.reverse) := by
    intro l
    induction l with
    | nil => exact ⟨by simp [adds], by simp [adds], by simp [adds]⟩
    | cons x l ih =>
      rw [List.reverse_cons, adds_append]
      generalize l.reverse = r at ih ⊢
      have hm : ∀ y, y ∈ adds [] r ↔ y ∈ r := by intro y; simp [mem_adds]
      have ho : (adds [] r).Pairwise (fun a b => (r ++ [x]).idxOf a < (r ++ [x]).idxOf b) := by
        apply ih.order.imp_of_mem
        intro a b ha hb hab
        simpa [List.idxOf_append, (hm a).1 ha, (hm b).1 hb] using hab
      show Firsts (r ++ [x]) (add (adds [] r) x)
      unfold add
      split
      · rename_i hx
        refine ⟨ih.nodup, fun y => ?_, ho⟩
        rw [hm]; simp
        rintro rfl
        exact (hm y).1 hx
      · rename_i hx
        have hxr : x ∉ r := fun h => hx ((hm x).2 h)
        refine ⟨?_, fun y => ?_, ?_⟩
        · rw [List.nodup_append]
          refine ⟨ih.nodup, by simp, ?_⟩
          intro a ha b hb
          simp only [List.mem_singleton] at hb
          subst hb
          rintro rfl; exact hx ha
        · simp [hm]
        · rw [List.pairwise_append]
          refine ⟨ho, by simp, ?_⟩
          intro a ha b hb
          simp only [List.mem_singleton] at hb
          subst hb
          have ha := (hm a).1 ha
          simp [List.idxOf_append, ha, hxr]
          exact List.idxOf_lt_length_of_mem ha
  have := key l.reverse
  simpa using this

theorem val_toNat {D : List Word} (hD : D.length + 1 < 2 ^ 32) {x : Word} (hx : x ∈ D) :
    (val D x).toNat = D.idxOf x + 1 := by
  have := List.idxOf_lt_length_of_mem hx
  unfold val
  rw [BitVec.toNat_add, BitVec.toNat_ofNat]
  simp
  omega

theorem val_inj {D : List Word} (hD : D.length + 1 < 2 ^ 32) {x y : Word} (hx : x ∈ D) (hy : y ∈ D)
    (h : val D x = val D y) : x = y := by
  have h1 := val_toNat hD hx
  have h2 := val_toNat hD hy
  rw [h] at h1
  have h3 : D.idxOf x = D.idxOf y := by omega
  have h4 := List.getElem_idxOf (List.idxOf_lt_length_of_mem hx)
  have h5 := List.getElem_idxOf (List.idxOf_lt_length_of_mem hy)
  rw [← h4, ← h5]
  simp only [h3]

theorem map_val {D : List Word} (hn : D.Nodup) :
    D.map (val D) = (List.range D.length).map fun i => BitVec.ofNat 32 (i + 1) := by
  apply List.ext_getElem
  · simp
  · intro i h1 h2
    have hi : i < D.length := by simpa using h1
    simp only [List.getElem_map, List.getElem_range, val]
    have : D.idxOf D[i] = i := hn.idxOf_getElem i hi
    rw [this]
    apply BitVec.eq_of_toNat_eq
    simp [BitVec.toNat_add]

theorem adds_map {f : Word → Word} (l d : List Word)
    (hf : ∀ x ∈ d ++ l, ∀ y ∈ d ++ l, f x = f y → x = y) : adds (d.map f) (l.map f) = (adds d l).map f := by
  induction l generalizing d with
  | nil => rfl
  | cons x l ih =>
    have : add (d.map f) (f x) = (add d x).map f := by
      unfold add
      by_cases hx : x ∈ d
      · have : f x ∈ d.map f := List.mem_map_of_mem hx
        simp [hx, this]
      · have : f x ∉ d.map f := by
          intro h
          obtain ⟨y, hy, hxy⟩ := List.mem_map.1 h
          have := hf y (by simp [hy]) x (by simp) hxy
          subst this; exact hx hy
        rw [if_neg this, if_neg hx, List.map_append]; rfl
    show adds (add (d.map f) (f x)) (l.map f) = (adds (add d x) l).map f
    rw [this]
    apply ih
    intro a ha b hb
    simp only [List.mem_append, mem_add] at ha hb
    apply hf <;> simp only [List.mem_append, List.mem_cons]
    · rcases ha with (h | h) | h <;> simp [h]
    · rcases hb with (h | h) | h <;> simp [h]

/-! ### Ids of a renamed module -/

theorem opIds_rename (f : Word → Word) (o : Operand) : opIds (renameOp f o) = (opIds o).map f := by
  unfold opIds renameOp
  by_cases h : o.type.isId = true <;> simp [h]

theorem scopeIds_rename (f : Word → Word) (w : Word) (h : ∀ x ∈ scopeIds w, f x ≠ 0) :
    scopeIds (renameScope f w) = (scopeIds w).map f := by
  unfold scopeIds renameScope at *
  by_cases hw : w = 0
  · simp [hw]
  · have := h w (by rw [if_neg hw]; simp)
    rw [if_neg hw, if_neg hw, if_neg this]; rfl

theorem coreIds_rename (f : Word → Word) (c : Core) (h : ∀ x ∈ coreIds c, f x ≠ 0) :
    coreIds (renameCore f c) = (coreIds c).map f := by
  unfold coreIds at *
  simp only [renameCore, List.map_append]
  rw [scopeIds_rename f _ (fun x hx => h x (by simp [hx])), scopeIds_rename f _ (fun x hx => h x (by simp [hx]))]
  congr 1
  rw [List.flatMap_map, List.map_flatMap]
  congr 1
  funext o
  exact opIds_rename f o

theorem flatMap_congr {α β : Type} {l : List α} {f g : α → List β} (h : ∀ a ∈ l, f a = g a) :
    l.flatMap f = l.flatMap g := by
  induction l with
  | nil => rfl
  | cons a l ih => simp [h a (by simp), ih (fun b hb => h b (by simp [hb]))]

theorem instIds_rename (f : Word → Word) (i : Inst) (h : ∀ x ∈ instIds i, f x ≠ 0) :
    instIds (renameInst f i) = (instIds i).map f := by
  unfold instIds at *
  simp only [renameInst, List.map_append]
  rw [coreIds_rename f _ (fun x hx => h x (by simp [hx])), List.flatMap_map, List.map_flatMap]
  congr 1
  apply flatMap_congr
  intro l hl
  exact coreIds_rename f l (fun x hx => h x (List.mem_append_left _ (List.mem_flatMap.2 ⟨l, hl, hx⟩)))

theorem ids_rename (f : Word → Word) (m : Module) (h : ∀ x ∈ ids m, f x ≠ 0) :
    ids (m.map (renameInst f)) = (ids m).map f := by
  unfold ids at *
  rw [Module.visit_map, List.flatMap_map, List.map_flatMap]
  apply flatMap_congr
  intro i hi
  exact instIds_rename f i (fun x hx => h x (List.mem_flatMap.2 ⟨i, hi, hx⟩))

theorem renameOp_id {f : Word → Word} (o : Operand) (h : ∀ x ∈ opIds o, f x = x) : renameOp f o = o := by
  unfold opIds renameOp at *
  by_cases ht : o.type.isId = true
  · simp only [ht, if_true] at h ⊢
    have : o.words.map f = o.words := by
      conv => rhs; rw [← List.map_id o.words]
      exact List.map_congr_left h
    rw [this]
  · simp [ht]

theorem renameScope_id {f : Word → Word} (w : Word) (h : ∀ x ∈ scopeIds w, f x = x) : renameScope f w = w := by
  unfold scopeIds renameScope at *
  by_cases hw : w = 0
  · simp [hw]
  · simp [hw] at h ⊢; exact h

theorem map_eq_self {α : Type} {l : List α} {f : α → α} (h : ∀ a ∈ l, f a = a) : l.map f = l := by
  conv => rhs; rw [← List.map_id l]
  exact List.map_congr_left h

theorem renameCore_id {f : Word → Word} (c : Core) (h : ∀ x ∈ coreIds c, f x = x) : renameCore f c = c := by
  unfold coreIds at h
  unfold renameCore
  rw [map_eq_self (fun o ho => renameOp_id o (fun x hx => h x (List.mem_append_left _ (List.mem_flatMap.2 ⟨o, ho, hx⟩)))),
    renameScope_id _ (fun x hx => h x (by simp [hx])), renameScope_id _ (fun x hx => h x (by simp [hx]))]

theorem renameInst_id {f : Word → Word} (i : Inst) (h : ∀ x ∈ instIds i, f x = x) : renameInst f i = i := by
  unfold instIds at h
  unfold renameInst
  rw [map_eq_self (fun o ho => renameCore_id o (fun x hx => h x (List.mem_append_left _ (List.mem_flatMap.2 ⟨o, ho, hx⟩)))),
    renameCore_id _ (fun x hx => h x (by simp [hx]))]

theorem instOk_rename {f : Word → Word} (i : Inst) (h : InstOk i) (hf : ∀ x ∈ instIds i, f x ≠ 0) :
    InstOk (renameInst f i) := by
  have hop : ∀ c, CoreOk c → CoreOk (renameCore f c) := by
    intro c hc o ho
    obtain ⟨o', ho', rfl⟩ := List.mem_map.1 ho
    intro ht
    have := hc o' ho'
    unfold renameOp at ht ⊢
    by_cases h' : o'.type.isId = true
    · simp [h', this h']
    · simp [h'] at ht
  refine ⟨hop _ h.1, ?_, ?_⟩
  · intro l hl
    obtain ⟨l', hl', rfl⟩ := List.mem_map.1 hl
    exact hop _ (h.2.1 l' hl')
  · intro l hl
    obtain ⟨l', hl', rfl⟩ := List.mem_map.1 hl
    obtain ⟨h1, h2⟩ := h.2.2 l' hl'
    constructor
    · intro h0
      have : i.core.scope ≠ 0 := by
        intro h'; apply h0; simp [renameInst, renameCore, renameScope, h']
      simp [renameInst, renameCore, h1 this]
    · intro h0
      have : i.core.inlinedAt ≠ 0 := by
        intro h'; apply h0; simp [renameInst, renameCore, renameScope, h']
      simp [renameInst, renameCore, h2 this]

end Verif.CompactIds
