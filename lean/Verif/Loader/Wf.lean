import Verif.Loader.EmitAll
import Verif.Loader.File

/-! # What the loader builds -/
set_option linter.unusedSimpArgs false
set_option linter.unusedVariables false
namespace Verif.Loader
open Verif.StringLit (Word)
open Spec (Rank Info Key Eff key norm carriesDebug scopeOf Ctx)

/-- The line that applies to the next instruction. -/
def pend (s : LState) : Option Key :=
  match s.lines.getLast? with
  | some l => lineKey l.inst
  | none => s.lastLine.map fun l => key l.inst

variable {P : Key → Prop} {HS HL HO : Prop}

/-- An instruction of a block, other than the label. -/
structure LInOk (P : Key → Prop) (HS HO : Prop) (i : Instr) : Prop where
  plain : carriesDebug i.inst = false
  lines : LinesOk P i
  normal : norm i.scope = i.scope
  dbg : HS ∨ (i.scope = noScope ∧ ∀ l ∈ i.lines, l.scope = noScope)
  merge : i.inst.op = .merge → i.scope = noScope
  notLabel : i.inst.op ≠ .label
  ops : ∀ l ∈ i.lines, l.inst.isOpLineInst = true → HO

/-- An unfinished block after the label. -/
def BodyPre (P : Key → Prop) (HS HO : Prop) : Option (Option Key) → List Instr → Option (Option Key) → Prop
  | am, [], am' => am = am'
  | am, i :: is, am' => LInOk P HS HO i ∧ am = none ∧ i.inst.op ≠ .terminator ∧
      BodyPre P HS HO (if i.inst.op = .merge then some i.line else none) is am'

/-- A finished block after the label. -/
def LBody (P : Key → Prop) (HS HO : Prop) : Option (Option Key) → List Instr → Prop
  | _, [] => False
  | am, i :: is =>
    LInOk P HS HO i ∧ (∀ k, am = some k → i.inst.op = .terminator ∧ i.line = k ∧ i.scope = noScope) ∧
    if i.inst.op = .terminator then is = []
    else LBody P HS HO (if i.inst.op = .merge then some i.line else none) is

/-- No scope starts between the label and the first instruction other than phis and variables,
the line instructions of that instruction included. -/
def Opens : Bool → List Instr → Prop
  | _, [] => True
  | rg, i :: is =>
    (rg = true → (∀ l ∈ i.lines, l.inst.isOpLineInst = true → l.scope = noScope) ∧
      (i.inst.op = .variable ∨ i.inst.op = .phi → i.scope = noScope)) ∧ Opens (rg && opening i.inst) is

theorem BodyPre.snoc : ∀ {is : List Instr} {am : Option (Option Key)} {i : Instr},
    BodyPre P HS HO am is none → LInOk P HS HO i → i.inst.op ≠ .terminator →
    BodyPre P HS HO am (is ++ [i]) (if i.inst.op = .merge then some i.line else none)
  | [], am, i, h, hi, ht => by cases h; exact ⟨hi, rfl, ht, rfl⟩
  | j :: is, am, i, h, hi, ht => ⟨h.1, h.2.1, h.2.2.1, BodyPre.snoc h.2.2.2 hi ht⟩

theorem BodyPre.finish : ∀ {is : List Instr} {am am' : Option (Option Key)} {i : Instr},
    BodyPre P HS HO am is am' → LInOk P HS HO i → i.inst.op = .terminator →
    (∀ k, am' = some k → i.line = k ∧ i.scope = noScope) → LBody P HS HO am (is ++ [i])
  | [], am, am', i, h, hi, ht, hk => by
    cases h
    exact ⟨hi, fun k h => ⟨ht, hk k h⟩, by rw [if_pos ht]⟩
  | j :: is, am, am', i, h, hi, ht, hk => by
    refine ⟨h.1, ?_, ?_⟩
    · intro k h'; rw [h.2.1] at h'; cases h'
    · rw [if_neg h.2.2.1]; exact BodyPre.finish h.2.2.2 hi ht hk

theorem LBody.body {c : Cfg} (hd : DbgOk c ∨ ¬ HS) : ∀ {is : List Instr} {am : Option (Option Key)} {rg : Bool},
    LBody P HS HO am is → (c.cl100 = true ∨ Opens rg is) → BodyOk P c rg am is
  | [], _, _, h, _ => h.elim
  | i :: is, am, rg, h, ho => by
    obtain ⟨h1, h2, h3⟩ := h
    refine ⟨⟨h1.plain, h1.lines, h1.normal, ?_, h1.merge, h1.notLabel, ?_⟩, h2, ?_⟩
    · rcases hd with hd | hd
      · exact .inl hd
      · rcases h1.dbg with h | h
        · exact absurd h hd
        · exact .inr h
    · intro hr hc
      rcases ho with ho | ho
      · rw [ho] at hc; cases hc
      · exact ho.1 hr
    · by_cases ht : i.inst.op = .terminator
      · rw [if_pos ht] at h3 ⊢; exact h3
      · rw [if_neg ht] at h3 ⊢
        exact LBody.body hd h3 (by
          rcases ho with ho | ho
          · exact .inl ho
          · exact .inr ho.2)

theorem LBody.opens (hs : ¬ HS) : ∀ {is : List Instr} {am : Option (Option Key)} {rg : Bool},
    LBody P HS HO am is → Opens rg is
  | [], _, _, h => h.elim
  | i :: is, am, rg, h => by
    obtain ⟨h1, h2, h3⟩ := h
    have hd : i.scope = noScope ∧ ∀ l ∈ i.lines, l.scope = noScope := by
      rcases h1.dbg with h | h
      · exact absurd h hs
      · exact h
    refine ⟨fun _ => ⟨fun l hl _ => hd.2 l hl, fun _ => hd.1⟩, ?_⟩
    by_cases ht : i.inst.op = .terminator
    · rw [if_pos ht] at h3; subst h3; trivial
    · rw [if_neg ht] at h3; exact LBody.opens hs h3

/-- The header of a function and its finished blocks. -/
structure FnBody (P : Key → Prop) (HS HO : Prop) (f : OpenFn) : Prop where
  defn : OutOk P f.defn
  params : ∀ i ∈ f.params, OutOk P i
  header : ∀ i ∈ f.header, OutOk P i
  blocks : ∀ b ∈ f.blocks, ∃ l body, b = l :: body ∧ l.inst.op = .label ∧ OutOk P l ∧ LBody P HS HO none body

/-- Pending and repeated line instructions. -/
structure LineInv (P : Key → Prop) (HS HL HO : Prop) (s : LState) : Prop where
  lines : ∀ l ∈ s.lines, l.inst.isLineInst = true ∧ (l.inst.isLine = true → P (key l.inst))
  linesHL : s.lines ≠ [] → HL
  linesHS : HS ∨ ∀ l ∈ s.lines, l.scope = noScope
  linesOut : s.blk = none → ∀ l ∈ s.lines, l.scope = noScope
  last : ∀ l, s.lastLine = some l → l.inst.isLine = true ∧ P (key l.inst) ∧ HL
  excl : s.lines ≠ [] → s.lastLine = none
  scopeHS : HS ∨ s.scope = noScope
  track : s.track = true
  ops : ∀ l ∈ s.lines ++ s.lastLine.toList, l.inst.isOpLineInst = true → HO

/-- The lists and the open function, block and graph. -/
structure Wf (P : Key → Prop) (HS HL HO : Prop) (pm : Bool) (s : LState) : Prop where
  glob : ∀ p ∈ globalSegs s.m, ∀ i ∈ p.2, OutOk P i
  geps : ∀ i ∈ s.m.graphEntryPoints, OutOk P i
  fns : ∀ f ∈ s.m.fns, FnBody P HS HO f.body ∧ (∀ i ∈ f.fin.toList ++ f.nonSem, OutOk P i)
  fn : ∀ f, s.fn = some f → FnBody P HS HO f
  blk : ∀ b, s.blk = some b → ∃ l body am, b = l :: body ∧ l.inst.op = .label ∧ OutOk P l ∧
    BodyPre P HS HO none body am ∧ ∀ k, am = some k → pm = true ∧ pend s = k ∧ s.scope = noScope
  graphs : ∀ g ∈ s.m.graphs, ∀ i ∈ g.instrs, OutOk P i ∧ (i.lines ≠ [] → HL)
  gr : ∀ g, s.gr = some g → ∀ i ∈ [g.defn] ++ g.inputs ++ g.insts ++ g.outputs, OutOk P i ∧ (i.lines ≠ [] → HL)
  dbg : ∀ i ∈ s.m.debugInfo, ∃ f set k, i.inst.op = .ext f set k ∧ set.isDebug = true

/-! ## Attaching lines -/

theorem isLine_setResultId (x : PInst) (id : Word) : (x.setResultId id).isLine = x.isLine := rfl

theorem key_setResultId {x : PInst} (h : x.isDebugLineInst = true) (id : Word) : key (x.setResultId id) = key x := by
  unfold key
  have h1 : (x.setResultId id).isDebugLineInst = x.isDebugLineInst := rfl
  have h2 : (x.setResultId id).inWords = x.inWords := by
    unfold PInst.isDebugLineInst at h
    unfold PInst.inWords PInst.setResultId
    split at h
    · rename_i ho; simp [ho, List.drop_set]
    · rename_i ho; simp [ho, List.drop_set]
    · cases h
  have h3 : (x.setResultId id).words.take 2 = x.words.take 2 := by
    unfold PInst.setResultId
    rw [List.take_set_of_le (by omega)]
  rw [h1, h2, h, if_pos rfl, h3]

theorem cloneLine_spec (s : LState) (l : LineInst) :
    ∃ id b, (cloneLine s l).2 = { s with bound := b } ∧
      ((cloneLine s l).1 = l ∨ (l.inst.isDebugLineInst = true ∧ (cloneLine s l).1 = ⟨l.inst.setResultId id, l.scope⟩)) := by
  unfold cloneLine
  split
  · rename_i h; exact ⟨_, _, rfl, .inr ⟨h, rfl⟩⟩
  · exact ⟨0, s.bound, rfl, .inl rfl⟩

theorem cloneLine_key (s : LState) (l : LineInst) :
    key (cloneLine s l).1.inst = key l.inst ∧ (cloneLine s l).1.inst.isLine = l.inst.isLine := by
  obtain ⟨id, b, _, h | ⟨h1, h2⟩⟩ := cloneLine_spec s l
  · rw [h]; exact ⟨rfl, rfl⟩
  · rw [h2]; exact ⟨key_setResultId h1 id, rfl⟩

theorem cloneLine_op (s : LState) (l : LineInst) : (cloneLine s l).1.inst.isOpLineInst = l.inst.isOpLineInst := by
  obtain ⟨id, b, _, h | ⟨h1, h2⟩⟩ := cloneLine_spec s l
  · rw [h]
  · rw [h2]; rfl

structure Attached (P : Key → Prop) (HS HL HO : Prop) (s : LState) (x : PInst) (i : Instr) (s' : LState) : Prop where
  inst : i.inst = x
  scope : i.scope = noScope
  line : i.line = pend s
  lines : LinesOk P i
  linesHL : i.lines ≠ [] → HL
  linesHS : HS ∨ ∀ l ∈ i.lines, l.scope = noScope
  linesOut : s.blk = none → ∀ l ∈ i.lines, l.scope = noScope
  same : ∃ ll b, s' = { s with lines := [], lastLine := ll, bound := b }
  pend : pend s' = pend s
  inv : LineInv P HS HL HO s'
  ops : ∀ l ∈ i.lines, l.inst.isOpLineInst = true → HO

theorem attach_spec {s : LState} (h : LineInv P HS HL HO s) (hsc : s.blk = none → s.scope = noScope) (x : PInst) :
    Attached P HS HL HO s x (attach s x).1 (attach s x).2 := by
  unfold attach
  cases hl : s.lines.getLast? with
  | some l =>
    simp only
    have hmem : l ∈ s.lines := List.mem_of_getLast? hl
    have hne : s.lines ≠ [] := List.ne_nil_of_mem hmem
    have hll := h.excl hne
    by_cases hn : l.inst.isNoLine = true
    · simp only [hn, Bool.not_true, Bool.and_false, Bool.false_eq_true, if_false]
      refine ⟨rfl, rfl, ?_, h.lines, h.linesHL, h.linesHS, h.linesOut, ⟨_, _, rfl⟩, ?_, ?_, fun l hl => h.ops l (List.mem_append_left _ hl)⟩
      · simp [Instr.line, pend, hl]
      · simp [pend, hl, hll, lineKey, hn]
      · exact ⟨by simp, by simp, .inr (by simp), by simp, h.last, by simp, h.scopeHS, h.track,
          fun l hl => h.ops l (List.mem_append_right _ (by simpa using hl))⟩
    · have hn' : l.inst.isNoLine = false := by simpa using hn
      have hil : l.inst.isLine = true := by
        have := (h.lines l hmem).1
        simpa [PInst.isLineInst, hn'] using this
      simp only [h.track, hn', Bool.not_false, Bool.and_self, if_true]
      obtain ⟨id, b, e1, _⟩ := cloneLine_spec s l
      obtain ⟨k1, k2⟩ := cloneLine_key s l
      refine ⟨rfl, rfl, ?_, h.lines, h.linesHL, h.linesHS, h.linesOut, ⟨_, _, by rw [e1]⟩, ?_, ?_,
        fun l hl => h.ops l (List.mem_append_left _ hl)⟩
      · simp [Instr.line, pend, hl]
      · simp [pend, hl, lineKey, hn', k1]
      · refine ⟨by simp, by simp, .inr (by simp), by simp, ?_, by simp, by rw [e1]; exact h.scopeHS, by rw [e1]; exact h.track, ?_⟩
        rotate_left
        · intro l' hl' ho
          simp at hl'
          subst hl'
          rw [cloneLine_op] at ho
          exact h.ops l (List.mem_append_left _ hmem) ho
        intro l' hl'
        cases hl'
        exact ⟨by rw [k2]; exact hil, by rw [k1]; exact (h.lines l hmem).2 hil, h.linesHL hne⟩
  | none =>
    have hnil : s.lines = [] := by simpa using hl
    simp only
    cases hll : s.lastLine with
    | none =>
      simp only
      refine ⟨rfl, rfl, ?_, by simp [LinesOk], by simp, .inr (by simp), by simp, ⟨s.lastLine, s.bound, ?_⟩, rfl, h, by simp⟩
      · simp [Instr.line, pend, hl, hll]
      · cases s; simp_all
    | some l =>
      simp only
      obtain ⟨h1, h2, h3⟩ := h.last l hll
      obtain ⟨id, b, e1, _⟩ := cloneLine_spec s ⟨l.inst, s.scope⟩
      obtain ⟨k1, k2⟩ := cloneLine_key s ⟨l.inst, s.scope⟩
      have hnn := isLine_not_noLine h1
      refine ⟨rfl, rfl, ?_, ?_, fun _ => h3, ?_, ?_, ⟨some (cloneLine s ⟨l.inst, s.scope⟩).1, b, ?_⟩, ?_, ?_, ?_⟩
      rotate_right
      · intro l' hl' ho
        simp only [List.mem_singleton] at hl'
        subst hl'
        exact h.ops l (List.mem_append_right _ (by simp [hll])) ho
      · simp [Instr.line, pend, hl, hll, lineKey, hnn]
      · intro l' hl'
        simp only [List.mem_singleton] at hl'
        subst hl'
        exact ⟨by simp [PInst.isLineInst, h1], fun _ => h2⟩
      · rcases h.scopeHS with h | h
        · exact .inl h
        · right; intro l' hl'
          simp only [List.mem_singleton] at hl'
          subst hl'; exact h
      · intro hb l' hl'
        simp only [List.mem_singleton] at hl'
        subst hl'; exact hsc hb
      · rw [e1, hnil]
      · rw [e1]; simp [pend, hl, hll, k1, hnil]
      · refine ⟨by rw [e1]; simp [hnil], by rw [e1]; simp [hnil], .inr (by rw [e1]; simp [hnil]),
          by rw [e1]; simp [hnil], ?_, by rw [e1]; simp [hnil], by rw [e1]; exact h.scopeHS, by rw [e1]; exact h.track, ?_⟩
        rotate_left
        · intro l' hl' ho
          rw [e1] at hl'
          simp [hnil] at hl'
          subst hl'
          rw [cloneLine_op] at ho
          exact h.ops l (List.mem_append_right _ (by simp [hll])) ho
        intro l' hl'
        cases hl'
        exact ⟨by rw [k2]; exact h1, by rw [k1]; exact h2, h3⟩

end Verif.Loader
