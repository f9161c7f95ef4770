import Verif.CompactIds.Lemmas

/-!
# C25: id compaction is an injective renaming onto 1..n

`Spec` (ids of a module, renaming, order of first appearance) is at the top of `Lemmas.lean`.
-/
namespace Verif.CompactIds
open Verif.StringLit (Word)
open Verif.Ir Spec

/-- The module after compaction: every id `x` replaced by its 1-based position among the
distinct ids, and the bound one more than their number. -/
theorem process_eq (m : Module) (hok : ModuleOk m) (hh : m.hidden = [])
    (hn : (adds [] (ids m)).length + 1 < 2 ^ 32) :
    process m = some ({ m.map (renameInst (val (adds [] (ids m)))) with
        bound := BitVec.ofNat 32 ((adds [] (ids m)).length + 1) },
      decide ({ m.map (renameInst (val (adds [] (ids m)))) with
        bound := BitVec.ofNat 32 ((adds [] (ids m)).length + 1) } ≠ m)) := by
  unfold process
  rw [module_run m hok hh]
  generalize adds [] (ids m) = D at hn ⊢
  simp only [Bool.false_eq_true, if_false, M_length]
  have hb : (m.map (renameInst (val D))).bound = m.bound := rfl
  by_cases h : m.bound.toNat = D.length + 1
  · have h0 : BitVec.ofNat 32 (D.length + 1) = m.bound := by
      apply BitVec.eq_of_toNat_eq; rw [BitVec.toNat_ofNat, h]; omega
    simp only [h, ne_eq, not_true_eq_false, if_false, h0]
    have : ({ m.map (renameInst (val D)) with bound := m.bound } : Module) = m.map (renameInst (val D)) := by
      rw [← hb]
    rw [this]
  · have h1 : BitVec.ofNat 32 (D.length + 1) ≠ 0#32 := by
      intro h'
      have := congrArg BitVec.toNat h'
      rw [BitVec.toNat_ofNat] at this
      simp at this; omega
    have h2 : ({ m.map (renameInst (val D)) with bound := BitVec.ofNat 32 (D.length + 1) } : Module) ≠ m := by
      intro h'
      apply h
      have := congrArg Module.bound h'
      simp only at this
      rw [← this, BitVec.toNat_ofNat]; omega
    simp only [ne_eq, h, not_false_eq_true, if_true, h1, if_false, h2, decide_true]

/-- C25, for modules whose line instructions are all visited by `Module::ForEachInst`
(`hidden = []`). Missing: modules with trailing line instructions or line instructions in a
graph, for which the statement is false of the code, see `compactIds_trailing_line`.
`d` is the list of ids in order of first appearance; ids are renamed by an injection that
maps `d` onto 1..n; nothing but ids and the bound changes; the pass reports a change
exactly when the module changed; a second run changes nothing. -/
theorem compactIds_partial (m : Module) (hok : ModuleOk m) (hh : m.hidden = [])
    (hn : ∀ d, Firsts (ids m) d → d.length + 1 < 2 ^ 32) :
    ∃ (d : List Word) (f : Word → Word) (m' : Module) (changed : Bool),
      process m = some (m', changed) ∧
      Firsts (ids m) d ∧
      (∀ x ∈ ids m, ∀ y ∈ ids m, f x = f y → x = y) ∧
      (d.map (fun x => (f x).toNat) = List.range' 1 d.length) ∧
      m' = { m.map (renameInst f) with bound := BitVec.ofNat 32 (d.length + 1) } ∧
      (changed = true ↔ m' ≠ m) ∧
      process m' = some (m', false) := by
  have hF := firsts_adds (ids m)
  have hlen := hn _ hF
  have hp := process_eq m hok hh hlen
  generalize hD : adds [] (ids m) = D at *
  have hne : ∀ x ∈ ids m, val D x ≠ 0 := by
    intro x hx h0
    have := val_toNat hlen ((hF.mem x).2 hx)
    rw [h0] at this; simp at this
  refine ⟨D, val D, _, _, hp, hF, ?_, ?_, rfl, by simp, ?_⟩
  · intro x hx y hy
    exact val_inj hlen ((hF.mem x).2 hx) ((hF.mem y).2 hy)
  · apply List.ext_getElem
    · simp
    · intro i h1 h2
      have hi : i < D.length := by simpa using h1
      simp only [List.getElem_map, List.getElem_range', val_toNat hlen (List.getElem_mem hi),
        hF.nodup.idxOf_getElem i hi]
      omega
  · generalize hm' : ({ m.map (renameInst (val D)) with bound := BitVec.ofNat 32 (D.length + 1) } : Module) = m'
    have hv : m'.visit = (m.map (renameInst (val D))).visit := by rw [← hm']; rfl
    have hids : ids m' = (ids m).map (val D) := by
      rw [← ids_rename _ m hne]; unfold ids; rw [hv]
    have hadds : adds [] (ids m') = D.map (val D) := by
      rw [hids]
      have := adds_map (f := val D) (ids m) [] (by
        intro x hx y hy
        exact val_inj hlen ((hF.mem x).2 (by simpa using hx)) ((hF.mem y).2 (by simpa using hy)))
      rw [List.map_nil, hD] at this
      exact this
    have hok' : ModuleOk m' := by
      intro i hi
      rw [hv, Module.visit_map] at hi
      obtain ⟨i', hi', rfl⟩ := List.mem_map.1 hi
      exact instOk_rename i' (hok i' hi') (fun x hx => hne x (List.mem_flatMap.2 ⟨i', hi', hx⟩))
    have hh' : m'.hidden = [] := by
      rw [← hm']
      unfold Module.hidden at hh ⊢
      obtain ⟨h1, h2⟩ := List.append_eq_nil_iff.1 hh
      refine List.append_eq_nil_iff.2 ⟨?_, h2⟩
      rw [List.flatMap_eq_nil_iff] at h1 ⊢
      intro g hg
      obtain ⟨g', hg', rfl⟩ := List.mem_map.1 hg
      rw [Graph.visit_map, List.flatMap_map, List.flatMap_eq_nil_iff]
      intro i hi
      have := List.flatMap_eq_nil_iff.1 (h1 g' hg') i hi
      simp [renameInst, this]
    have hp' := process_eq m' hok' hh' (by rw [hadds]; simpa using hlen)
    rw [hp', hadds]
    have hself : m'.map (renameInst (val (D.map (val D)))) = m' := by
      have : m'.map (renameInst (val (D.map (val D)))) = m'.map id := by
        apply Module.map_congr
        intro i hi
        apply renameInst_id
        intro y hy
        have : y ∈ ids m' := List.mem_flatMap.2 ⟨i, hi, hy⟩
        rw [hids] at this
        obtain ⟨x, hx, rfl⟩ := List.mem_map.1 this
        have hxD := (hF.mem x).2 hx
        have hk := List.idxOf_lt_length_of_mem hxD
        have hidx : (D.map (val D)).idxOf (val D x) = D.idxOf x := by
          have hnd : (D.map (val D)).Nodup := by
            rw [List.nodup_iff_pairwise_ne, List.pairwise_map]
            exact hF.nodup.imp_of_mem (fun {a b} ha hb hab h => hab (val_inj hlen ha hb h))
          have hge : (D.map (val D))[D.idxOf x]'(by simpa using hk) = val D x := by
            simp [List.getElem_idxOf hk]
          rw [← hge]
          exact hnd.idxOf_getElem _ _
        unfold val at hidx ⊢
        rw [hidx]
      rw [this, Module.map_id]
    rw [hself]
    have hb : m'.bound = BitVec.ofNat 32 (D.length + 1) := by rw [← hm']
    simp [← hb]

/-! ### A concrete case -/

namespace Example
open Verif.Binary (OT)

def inst (op : Nat) (os : List Operand) : Inst := ⟨⟨op, os, 0, 0⟩, []⟩
def line (file : Word) : Core := ⟨8, [⟨.ID, [file]⟩, ⟨.LITERAL_INTEGER, [1]⟩, ⟨.LITERAL_INTEGER, [1]⟩], 0, 0⟩

/-- `%9 = OpString`, `%40 = OpTypeVoid`, and `OpLine %9` before `%7 = OpUndef %40`. -/
def mod : Module :=
  { bound := 50, capabilities := [], extensions := [], imports := [], memoryModel := none,
    samplerMode := none, entryPoints := [], graphEntryPoints := [], executionModes := [],
    debugs1 := [inst 7 [⟨.RESULT_ID, [9]⟩, ⟨.LITERAL_STRING, [0x61]⟩]], debugs2 := [], debugs3 := [],
    debugInfo := [], annotations := [],
    typesValues := [inst 19 [⟨.RESULT_ID, [40]⟩],
      ⟨⟨1, [⟨.TYPE_ID, [40]⟩, ⟨.RESULT_ID, [7]⟩], 0, 0⟩, [line 9]⟩],
    functions := [], graphs := [], trailing := [] }

example : mod.hidden = [] ∧ ids mod = [9, 40, 9, 40, 7] := by decide

example : ModuleOk mod := by
  intro i hi
  simp [mod, Module.visit, inst] at hi
  rcases hi with rfl | rfl | rfl <;>
    exact ⟨by simp [CoreOk, OpOk, OT.isId, line], by simp [CoreOk, OpOk, OT.isId, line], by simp [LinesOk, line]⟩

example : (process mod).map (fun r => (ids r.1, r.1.bound, r.2)) = some ([1, 2, 1, 2, 3], 4, true) := by decide

/-- C25 is false of modules with trailing line instructions: here `OpLine %9` at the end of
the module keeps its old id although `%9` has become `%1` and the bound is 4. -/
theorem compactIds_trailing_line : ∃ m m' : Module,
    process m = some (m', true) ∧ m.trailing.map coreIds = [[9]] ∧ m'.trailing.map coreIds = [[9]] ∧
    9 ∈ ids m ∧ 9 ∉ ids m' ∧ m'.bound = 4 :=
  ⟨{ mod with trailing := [line 9] }, _, by rfl, by decide, by decide, by decide, by decide, by decide⟩

end Example
end Verif.CompactIds
