import Verif.Layout.Deriv

/-!
# Properties of the layout check
-/
namespace Verif.Layout
open Spec

theorem rank_section (x : Op) : prologueRank x = (preSection x).map (· + 1) := by
  cases x <;> rfl

theorem rtypes_iff (l : List Op) :
    Rtypes l ↔ ∃ types decls defs graphs, Body l types decls defs graphs := by
  constructor
  · rintro ⟨types, r, h1, h2, decls, r2, rfl, h3, defs, r3, rfl, h4, h5, graphs, r4, rfl, h6, rfl⟩
    simp only [List.append_nil] at h1 h5
    exact ⟨types, decls, defs, graphs, h1, h2, h3, h4, h6, h5⟩
  · rintro ⟨types, decls, defs, graphs, h⟩
    exact ⟨types, _, h.split, h.inTypes, decls, _, rfl, h.areDecls, defs, _, rfl, h.areDefs,
      h.graphsStart, graphs, [], by simp, h.areGraphs, rfl⟩

/-- C39: the validator's layout check accepts an instruction sequence exactly when it is a
module in the logical layout order, with functions, blocks and graphs well bracketed. -/
theorem accepts_iff (m : List Op) : accepts m = true ↔ WellLaidOut m := by
  rw [accepts_eq, arun_iff m (by decide)]
  have hsome : ∀ x : Op, (prologueRank x).isSome ↔ ∃ k, preSection x = some k ∧ 0 ≤ k := by
    intro x
    rw [rank_section]
    cases h : preSection x with
    | none => simp
    | some k => exact iff_of_true rfl ⟨k, rfl, by omega⟩
  have hle : ∀ (pro : List Op), (∀ x ∈ pro, ∃ k, preSection x = some k ∧ 0 ≤ k) →
      (pro.Pairwise (fun x y => (preSection x).getD 0 ≤ (preSection y).getD 0) ↔
       pro.Pairwise (fun x y => (prologueRank x).getD 0 ≤ (prologueRank y).getD 0)) := by
    intro pro hp
    refine List.Pairwise.iff_of_mem fun {x y} hx hy => ?_
    obtain ⟨k, hk, -⟩ := hp x hx
    obtain ⟨j, hj, -⟩ := hp y hy
    rw [rank_section, rank_section, hk, hj]
    simp
  constructor
  · rintro ⟨pro, rest, h1, h2, h3, h4, h5, h6⟩
    obtain ⟨types, decls, defs, graphs, hb⟩ := (rtypes_iff rest).mp h5
    exact ⟨pro, rest, types, decls, defs, graphs, h1,
      ⟨fun x hx => (hsome x).mpr (h2 x hx), (hle pro h2).mp h3, h4⟩, hb, h6⟩
  · rintro ⟨pro, rest, types, decls, defs, graphs, h1, ⟨h2, h3, h4⟩, hb, h6⟩
    have h2' : ∀ x ∈ pro, ∃ k, preSection x = some k ∧ 0 ≤ k := fun x hx => (hsome x).mp (h2 x hx)
    exact ⟨pro, rest, h1, h2', (hle pro h2').mpr h3, h4,
      (rtypes_iff rest).mpr ⟨types, decls, defs, graphs, hb⟩, h6⟩

/-- C39: no assertion of the layout machinery fails, its loop over the sections ends and its
recursion is at most three deep, whatever the instructions. -/
theorem never_faults (m : List Op) : run initial m ≠ .fault := run_no_fault m

/-- A small shader, a declaration and a graph. -/
def sample : List Op :=
  [.capability, .capability, .extInstImport, .memoryModel, .entryPoint, .name, .annotation,
   .typ, .typ, .var, .ext ⟨false, true, false, true⟩,
   .function, .functionParameter, .functionEnd,
   .function, .functionParameter, .label, .var, .other, .terminator, .line, .label, .terminator,
   .functionEnd, .graphEntryPoint, .graph, .graphInput, .compositeExtract, .graphSetOutput, .graphEnd]

example : accepts sample = true ∧ accepts (sample.take 16) = false ∧
    accepts (.memoryModel :: sample) = false := by decide

/-- A line instruction between two function declarations makes the second one unacceptable:
"function declarations must appear before function definitions". -/
theorem line_between_declarations :
    accepts [.memoryModel, .typ, .function, .functionEnd, .function, .functionEnd] = true ∧
    accepts [.memoryModel, .typ, .function, .functionEnd, .line, .function, .functionEnd] = false := by
  decide

/-- Likewise a line inside a declaration. -/
theorem line_in_declaration :
    accepts [.memoryModel, .typ, .function, .line, .functionEnd] = false := by decide

end Verif.Layout
