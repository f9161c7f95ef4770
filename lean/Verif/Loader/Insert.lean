import Verif.Loader.Segs

/-! # Each way of filing an instruction is an insertion at its place -/
set_option linter.unusedSimpArgs false
set_option linter.unusedVariables false
namespace Verif.Loader
open Verif.StringLit (Word)
open Spec (Rank Info Key Eff key norm)

theorem ins_caps (m : Mod) (i : Instr) {rest : List Seg} (hr : ∀ p ∈ rest, 13 ≤ p.1.1) :
    flat (globalSegs { m with caps := m.caps ++ [i] } ++ rest) =
      Spec.insert ((0, 0), infoOf i) (flat (globalSegs m ++ rest)) := by
  exact (insert_global (r := (0, 0)) (ys := m.caps) (i := i) (l1 := []) (l2 := [(((1, 0) : Rank), m.exts), (((2, 0) : Rank), m.imports), (((3, 0) : Rank), m.memoryModel.toList), (((4, 0) : Rank), m.sampler.toList), (((5, 0) : Rank), m.entryPoints), (((6, 0) : Rank), m.modes), (((7, 0) : Rank), m.debugs1), (((8, 0) : Rank), m.debugs2), (((9, 0) : Rank), m.debugs3), (((10, 0) : Rank), m.annotations), (((11, 0) : Rank), m.typesValues), (((12, 0) : Rank), m.debugInfo)]) hr
    (by simp) (by simp) (by simp)).symm

theorem ins_exts (m : Mod) (i : Instr) {rest : List Seg} (hr : ∀ p ∈ rest, 13 ≤ p.1.1) :
    flat (globalSegs { m with exts := m.exts ++ [i] } ++ rest) =
      Spec.insert ((1, 0), infoOf i) (flat (globalSegs m ++ rest)) := by
  exact (insert_global (r := (1, 0)) (ys := m.exts) (i := i) (l1 := [(((0, 0) : Rank), m.caps)]) (l2 := [(((2, 0) : Rank), m.imports), (((3, 0) : Rank), m.memoryModel.toList), (((4, 0) : Rank), m.sampler.toList), (((5, 0) : Rank), m.entryPoints), (((6, 0) : Rank), m.modes), (((7, 0) : Rank), m.debugs1), (((8, 0) : Rank), m.debugs2), (((9, 0) : Rank), m.debugs3), (((10, 0) : Rank), m.annotations), (((11, 0) : Rank), m.typesValues), (((12, 0) : Rank), m.debugInfo)]) hr
    (by simp) (by simp) (by simp)).symm

theorem ins_imports (m : Mod) (i : Instr) {rest : List Seg} (hr : ∀ p ∈ rest, 13 ≤ p.1.1) :
    flat (globalSegs { m with imports := m.imports ++ [i] } ++ rest) =
      Spec.insert ((2, 0), infoOf i) (flat (globalSegs m ++ rest)) := by
  exact (insert_global (r := (2, 0)) (ys := m.imports) (i := i) (l1 := [(((0, 0) : Rank), m.caps), (((1, 0) : Rank), m.exts)]) (l2 := [(((3, 0) : Rank), m.memoryModel.toList), (((4, 0) : Rank), m.sampler.toList), (((5, 0) : Rank), m.entryPoints), (((6, 0) : Rank), m.modes), (((7, 0) : Rank), m.debugs1), (((8, 0) : Rank), m.debugs2), (((9, 0) : Rank), m.debugs3), (((10, 0) : Rank), m.annotations), (((11, 0) : Rank), m.typesValues), (((12, 0) : Rank), m.debugInfo)]) hr
    (by simp) (by simp) (by simp)).symm

theorem ins_memoryModel (m : Mod) (i : Instr) (h0 : m.memoryModel = none) {rest : List Seg} (hr : ∀ p ∈ rest, 13 ≤ p.1.1) :
    flat (globalSegs { m with memoryModel := some i } ++ rest) =
      Spec.insert ((3, 0), infoOf i) (flat (globalSegs m ++ rest)) := by
  have e : globalSegs m = [(((0, 0) : Rank), m.caps), (((1, 0) : Rank), m.exts), (((2, 0) : Rank), m.imports)] ++ (((3, 0) : Rank), ([] : List Instr)) :: [(((4, 0) : Rank), m.sampler.toList), (((5, 0) : Rank), m.entryPoints), (((6, 0) : Rank), m.modes), (((7, 0) : Rank), m.debugs1), (((8, 0) : Rank), m.debugs2), (((9, 0) : Rank), m.debugs3), (((10, 0) : Rank), m.annotations), (((11, 0) : Rank), m.typesValues), (((12, 0) : Rank), m.debugInfo)] := by simp [globalSegs, h0]
  rw [e]
  exact (insert_global (r := (3, 0)) (ys := []) (i := i) (l1 := [(((0, 0) : Rank), m.caps), (((1, 0) : Rank), m.exts), (((2, 0) : Rank), m.imports)]) (l2 := [(((4, 0) : Rank), m.sampler.toList), (((5, 0) : Rank), m.entryPoints), (((6, 0) : Rank), m.modes), (((7, 0) : Rank), m.debugs1), (((8, 0) : Rank), m.debugs2), (((9, 0) : Rank), m.debugs3), (((10, 0) : Rank), m.annotations), (((11, 0) : Rank), m.typesValues), (((12, 0) : Rank), m.debugInfo)]) hr
    (by simp) (by simp) (by simp)).symm

theorem ins_sampler (m : Mod) (i : Instr) (h0 : m.sampler = none) {rest : List Seg} (hr : ∀ p ∈ rest, 13 ≤ p.1.1) :
    flat (globalSegs { m with sampler := some i } ++ rest) =
      Spec.insert ((4, 0), infoOf i) (flat (globalSegs m ++ rest)) := by
  have e : globalSegs m = [(((0, 0) : Rank), m.caps), (((1, 0) : Rank), m.exts), (((2, 0) : Rank), m.imports), (((3, 0) : Rank), m.memoryModel.toList)] ++ (((4, 0) : Rank), ([] : List Instr)) :: [(((5, 0) : Rank), m.entryPoints), (((6, 0) : Rank), m.modes), (((7, 0) : Rank), m.debugs1), (((8, 0) : Rank), m.debugs2), (((9, 0) : Rank), m.debugs3), (((10, 0) : Rank), m.annotations), (((11, 0) : Rank), m.typesValues), (((12, 0) : Rank), m.debugInfo)] := by simp [globalSegs, h0]
  rw [e]
  exact (insert_global (r := (4, 0)) (ys := []) (i := i) (l1 := [(((0, 0) : Rank), m.caps), (((1, 0) : Rank), m.exts), (((2, 0) : Rank), m.imports), (((3, 0) : Rank), m.memoryModel.toList)]) (l2 := [(((5, 0) : Rank), m.entryPoints), (((6, 0) : Rank), m.modes), (((7, 0) : Rank), m.debugs1), (((8, 0) : Rank), m.debugs2), (((9, 0) : Rank), m.debugs3), (((10, 0) : Rank), m.annotations), (((11, 0) : Rank), m.typesValues), (((12, 0) : Rank), m.debugInfo)]) hr
    (by simp) (by simp) (by simp)).symm

theorem ins_entryPoints (m : Mod) (i : Instr) {rest : List Seg} (hr : ∀ p ∈ rest, 13 ≤ p.1.1) :
    flat (globalSegs { m with entryPoints := m.entryPoints ++ [i] } ++ rest) =
      Spec.insert ((5, 0), infoOf i) (flat (globalSegs m ++ rest)) := by
  exact (insert_global (r := (5, 0)) (ys := m.entryPoints) (i := i) (l1 := [(((0, 0) : Rank), m.caps), (((1, 0) : Rank), m.exts), (((2, 0) : Rank), m.imports), (((3, 0) : Rank), m.memoryModel.toList), (((4, 0) : Rank), m.sampler.toList)]) (l2 := [(((6, 0) : Rank), m.modes), (((7, 0) : Rank), m.debugs1), (((8, 0) : Rank), m.debugs2), (((9, 0) : Rank), m.debugs3), (((10, 0) : Rank), m.annotations), (((11, 0) : Rank), m.typesValues), (((12, 0) : Rank), m.debugInfo)]) hr
    (by simp) (by simp) (by simp)).symm

theorem ins_modes (m : Mod) (i : Instr) {rest : List Seg} (hr : ∀ p ∈ rest, 13 ≤ p.1.1) :
    flat (globalSegs { m with modes := m.modes ++ [i] } ++ rest) =
      Spec.insert ((6, 0), infoOf i) (flat (globalSegs m ++ rest)) := by
  exact (insert_global (r := (6, 0)) (ys := m.modes) (i := i) (l1 := [(((0, 0) : Rank), m.caps), (((1, 0) : Rank), m.exts), (((2, 0) : Rank), m.imports), (((3, 0) : Rank), m.memoryModel.toList), (((4, 0) : Rank), m.sampler.toList), (((5, 0) : Rank), m.entryPoints)]) (l2 := [(((7, 0) : Rank), m.debugs1), (((8, 0) : Rank), m.debugs2), (((9, 0) : Rank), m.debugs3), (((10, 0) : Rank), m.annotations), (((11, 0) : Rank), m.typesValues), (((12, 0) : Rank), m.debugInfo)]) hr
    (by simp) (by simp) (by simp)).symm

theorem ins_debugs1 (m : Mod) (i : Instr) {rest : List Seg} (hr : ∀ p ∈ rest, 13 ≤ p.1.1) :
    flat (globalSegs { m with debugs1 := m.debugs1 ++ [i] } ++ rest) =
      Spec.insert ((7, 0), infoOf i) (flat (globalSegs m ++ rest)) := by
  exact (insert_global (r := (7, 0)) (ys := m.debugs1) (i := i) (l1 := [(((0, 0) : Rank), m.caps), (((1, 0) : Rank), m.exts), (((2, 0) : Rank), m.imports), (((3, 0) : Rank), m.memoryModel.toList), (((4, 0) : Rank), m.sampler.toList), (((5, 0) : Rank), m.entryPoints), (((6, 0) : Rank), m.modes)]) (l2 := [(((8, 0) : Rank), m.debugs2), (((9, 0) : Rank), m.debugs3), (((10, 0) : Rank), m.annotations), (((11, 0) : Rank), m.typesValues), (((12, 0) : Rank), m.debugInfo)]) hr
    (by simp) (by simp) (by simp)).symm

theorem ins_debugs2 (m : Mod) (i : Instr) {rest : List Seg} (hr : ∀ p ∈ rest, 13 ≤ p.1.1) :
    flat (globalSegs { m with debugs2 := m.debugs2 ++ [i] } ++ rest) =
      Spec.insert ((8, 0), infoOf i) (flat (globalSegs m ++ rest)) := by
  exact (insert_global (r := (8, 0)) (ys := m.debugs2) (i := i) (l1 := [(((0, 0) : Rank), m.caps), (((1, 0) : Rank), m.exts), (((2, 0) : Rank), m.imports), (((3, 0) : Rank), m.memoryModel.toList), (((4, 0) : Rank), m.sampler.toList), (((5, 0) : Rank), m.entryPoints), (((6, 0) : Rank), m.modes), (((7, 0) : Rank), m.debugs1)]) (l2 := [(((9, 0) : Rank), m.debugs3), (((10, 0) : Rank), m.annotations), (((11, 0) : Rank), m.typesValues), (((12, 0) : Rank), m.debugInfo)]) hr
    (by simp) (by simp) (by simp)).symm

theorem ins_debugs3 (m : Mod) (i : Instr) {rest : List Seg} (hr : ∀ p ∈ rest, 13 ≤ p.1.1) :
    flat (globalSegs { m with debugs3 := m.debugs3 ++ [i] } ++ rest) =
      Spec.insert ((9, 0), infoOf i) (flat (globalSegs m ++ rest)) := by
  exact (insert_global (r := (9, 0)) (ys := m.debugs3) (i := i) (l1 := [(((0, 0) : Rank), m.caps), (((1, 0) : Rank), m.exts), (((2, 0) : Rank), m.imports), (((3, 0) : Rank), m.memoryModel.toList), (((4, 0) : Rank), m.sampler.toList), (((5, 0) : Rank), m.entryPoints), (((6, 0) : Rank), m.modes), (((7, 0) : Rank), m.debugs1), (((8, 0) : Rank), m.debugs2)]) (l2 := [(((10, 0) : Rank), m.annotations), (((11, 0) : Rank), m.typesValues), (((12, 0) : Rank), m.debugInfo)]) hr
    (by simp) (by simp) (by simp)).symm

theorem ins_annotations (m : Mod) (i : Instr) {rest : List Seg} (hr : ∀ p ∈ rest, 13 ≤ p.1.1) :
    flat (globalSegs { m with annotations := m.annotations ++ [i] } ++ rest) =
      Spec.insert ((10, 0), infoOf i) (flat (globalSegs m ++ rest)) := by
  exact (insert_global (r := (10, 0)) (ys := m.annotations) (i := i) (l1 := [(((0, 0) : Rank), m.caps), (((1, 0) : Rank), m.exts), (((2, 0) : Rank), m.imports), (((3, 0) : Rank), m.memoryModel.toList), (((4, 0) : Rank), m.sampler.toList), (((5, 0) : Rank), m.entryPoints), (((6, 0) : Rank), m.modes), (((7, 0) : Rank), m.debugs1), (((8, 0) : Rank), m.debugs2), (((9, 0) : Rank), m.debugs3)]) (l2 := [(((11, 0) : Rank), m.typesValues), (((12, 0) : Rank), m.debugInfo)]) hr
    (by simp) (by simp) (by simp)).symm

theorem ins_typesValues (m : Mod) (i : Instr) {rest : List Seg} (hr : ∀ p ∈ rest, 13 ≤ p.1.1) :
    flat (globalSegs { m with typesValues := m.typesValues ++ [i] } ++ rest) =
      Spec.insert ((11, 0), infoOf i) (flat (globalSegs m ++ rest)) := by
  exact (insert_global (r := (11, 0)) (ys := m.typesValues) (i := i) (l1 := [(((0, 0) : Rank), m.caps), (((1, 0) : Rank), m.exts), (((2, 0) : Rank), m.imports), (((3, 0) : Rank), m.memoryModel.toList), (((4, 0) : Rank), m.sampler.toList), (((5, 0) : Rank), m.entryPoints), (((6, 0) : Rank), m.modes), (((7, 0) : Rank), m.debugs1), (((8, 0) : Rank), m.debugs2), (((9, 0) : Rank), m.debugs3), (((10, 0) : Rank), m.annotations)]) (l2 := [(((12, 0) : Rank), m.debugInfo)]) hr
    (by simp) (by simp) (by simp)).symm

theorem ins_debugInfo (m : Mod) (i : Instr) {rest : List Seg} (hr : ∀ p ∈ rest, 13 ≤ p.1.1) :
    flat (globalSegs { m with debugInfo := m.debugInfo ++ [i] } ++ rest) =
      Spec.insert ((12, 0), infoOf i) (flat (globalSegs m ++ rest)) := by
  exact (insert_global (r := (12, 0)) (ys := m.debugInfo) (i := i) (l1 := [(((0, 0) : Rank), m.caps), (((1, 0) : Rank), m.exts), (((2, 0) : Rank), m.imports), (((3, 0) : Rank), m.memoryModel.toList), (((4, 0) : Rank), m.sampler.toList), (((5, 0) : Rank), m.entryPoints), (((6, 0) : Rank), m.modes), (((7, 0) : Rank), m.debugs1), (((8, 0) : Rank), m.debugs2), (((9, 0) : Rank), m.debugs3), (((10, 0) : Rank), m.annotations), (((11, 0) : Rank), m.typesValues)]) (l2 := []) hr
    (by simp) (by simp) (by simp)).symm

/-! ## Functions and graphs -/

theorem ins_fn_def (n : Nat) (i : Instr) {A B : List Seg} (hA : ∀ p ∈ A, p.1.le (13, 4 * n) = true)
    (hB : ∀ p ∈ B, 14 ≤ p.1.1) :
    flat (A ++ (fnSegs n ⟨i, [], [], []⟩ [] ++ B)) =
      Spec.insert ((13, 4 * n), infoOf i) (flat (A ++ B)) := by
  have := insert_flat (r := (13, 4 * n)) (ys := []) (i := i) (l1 := A) (l2 := B) hA
    (fun p hp => le_false_iff.2 (by have := hB p hp; simp only; omega))
  simp only [flat_append, flat_cons_nil] at this ⊢
  rw [this]
  simp [fnSegs, flat_cons]

theorem ins_fn_param (n : Nat) (f : OpenFn) (t : List Instr) (i : Instr) {A B : List Seg}
    (hA : ∀ p ∈ A, p.1.le (13, 4 * n) = true) (hB : ∀ p ∈ B, 14 ≤ p.1.1) :
    flat (A ++ (fnSegs n { f with params := f.params ++ [i] } t ++ B)) =
      Spec.insert ((13, 4 * n + 1), infoOf i) (flat (A ++ (fnSegs n f t ++ B))) := by
  have := insert_flat (r := (13, 4 * n + 1)) (ys := f.params) (i := i)
    (l1 := A ++ [((13, 4 * n), [f.defn])])
    (l2 := ((13, 4 * n + 2), f.header) :: ((13, 4 * n + 3), f.blocks.flatten ++ t) :: B)
    (by
      intro p hp
      rcases List.mem_append.1 hp with hp | hp
      · have := le_true_iff.1 (hA p hp); refine le_true_iff.2 ?_; simp only at this ⊢; omega
      · simp only [List.mem_singleton] at hp; subst hp; simp [Rank.le])
    (by
      intro p hp
      refine le_false_iff.2 ?_
      simp only [List.mem_cons] at hp
      rcases hp with rfl | rfl | hp
      · simp only; omega
      · simp only; omega
      · have := hB p hp; simp only; omega)
  simpa [fnSegs] using this.symm

theorem ins_fn_header (n : Nat) (f : OpenFn) (t : List Instr) (i : Instr) {A B : List Seg}
    (hA : ∀ p ∈ A, p.1.le (13, 4 * n) = true) (hB : ∀ p ∈ B, 14 ≤ p.1.1) :
    flat (A ++ (fnSegs n { f with header := f.header ++ [i] } t ++ B)) =
      Spec.insert ((13, 4 * n + 2), infoOf i) (flat (A ++ (fnSegs n f t ++ B))) := by
  have := insert_flat (r := (13, 4 * n + 2)) (ys := f.header) (i := i)
    (l1 := A ++ [((13, 4 * n), [f.defn]), ((13, 4 * n + 1), f.params)])
    (l2 := ((13, 4 * n + 3), f.blocks.flatten ++ t) :: B)
    (by
      intro p hp
      rcases List.mem_append.1 hp with hp | hp
      · have := le_true_iff.1 (hA p hp); refine le_true_iff.2 ?_; simp only at this ⊢; omega
      · simp only [List.mem_cons, List.not_mem_nil, or_false] at hp
        refine le_true_iff.2 ?_
        rcases hp with rfl | rfl <;> simp)
    (by
      intro p hp
      refine le_false_iff.2 ?_
      simp only [List.mem_cons] at hp
      rcases hp with rfl | hp
      · simp only; omega
      · have := hB p hp; simp only; omega)
  simpa [fnSegs] using this.symm

theorem ins_fn_tail (n : Nat) (f : OpenFn) (t : List Instr) (i : Instr) {A B : List Seg}
    (hA : ∀ p ∈ A, p.1.le (13, 4 * n) = true) (hB : ∀ p ∈ B, 14 ≤ p.1.1) :
    flat (A ++ (fnSegs n f (t ++ [i]) ++ B)) =
      Spec.insert ((13, 4 * n + 3), infoOf i) (flat (A ++ (fnSegs n f t ++ B))) := by
  have := insert_flat (r := (13, 4 * n + 3)) (ys := f.blocks.flatten ++ t) (i := i)
    (l1 := A ++ [((13, 4 * n), [f.defn]), ((13, 4 * n + 1), f.params), ((13, 4 * n + 2), f.header)])
    (l2 := B)
    (by
      intro p hp
      rcases List.mem_append.1 hp with hp | hp
      · have := le_true_iff.1 (hA p hp); refine le_true_iff.2 ?_; simp only at this ⊢; omega
      · simp only [List.mem_cons, List.not_mem_nil, or_false] at hp
        refine le_true_iff.2 ?_
        rcases hp with rfl | rfl | rfl <;> simp)
    (by
      intro p hp
      refine le_false_iff.2 ?_
      have := hB p hp; simp only; omega)
  simpa [fnSegs] using this.symm

theorem ins_gr_def (n : Nat) (i : Instr) {A : List Seg} (hA : ∀ p ∈ A, p.1.le (15, 5 * n) = true) :
    flat (A ++ grSegs n ⟨i, [], [], []⟩ []) = Spec.insert ((15, 5 * n), infoOf i) (flat A) := by
  have := insert_flat (r := (15, 5 * n)) (ys := []) (i := i) (l1 := A) (l2 := []) hA (by simp)
  simp only [flat_append, flat_cons_nil, flat_nil, List.append_nil] at this ⊢
  rw [this]
  simp [grSegs, flat_cons]

theorem ins_gr {n : Nat} {r : Rank} {ys : List Instr} {i : Instr} {A l1 l2 : List Seg}
    (hA : ∀ p ∈ A, p.1.le (15, 5 * n) = true) (hr : r.1 = 15 ∧ 5 * n ≤ r.2)
    (h1 : ∀ p ∈ l1, p.1.le r = true) (h2 : ∀ p ∈ l2, p.1.le r = false) :
    flat (A ++ (l1 ++ (r, ys ++ [i]) :: l2)) =
      Spec.insert (r, infoOf i) (flat (A ++ (l1 ++ (r, ys) :: l2))) := by
  have := insert_flat (r := r) (ys := ys) (i := i) (l1 := A ++ l1) (l2 := l2)
    (by
      intro p hp
      rcases List.mem_append.1 hp with hp | hp
      · have := le_true_iff.1 (hA p hp); refine le_true_iff.2 ?_; simp only at this ⊢; omega
      · exact h1 p hp) h2
  simpa using this.symm

theorem ins_gr_input (n : Nat) (g : OpenGraph) (t : List Instr) (i : Instr) {A : List Seg}
    (hA : ∀ p ∈ A, p.1.le (15, 5 * n) = true) :
    flat (A ++ grSegs n { g with inputs := g.inputs ++ [i] } t) =
      Spec.insert ((15, 5 * n + 1), infoOf i) (flat (A ++ grSegs n g t)) :=
  ins_gr (n := n) (r := (15, 5 * n + 1)) (ys := g.inputs) (i := i) (l1 := [((15, 5 * n), [g.defn])])
    (l2 := [((15, 5 * n + 2), g.insts), ((15, 5 * n + 3), g.outputs), ((15, 5 * n + 4), t)]) hA
    (by simp) (by simp [Rank.le]) (by simp [Rank.le])

theorem ins_gr_insts (n : Nat) (g : OpenGraph) (t : List Instr) (i : Instr) {A : List Seg}
    (hA : ∀ p ∈ A, p.1.le (15, 5 * n) = true) :
    flat (A ++ grSegs n { g with insts := g.insts ++ [i] } t) =
      Spec.insert ((15, 5 * n + 2), infoOf i) (flat (A ++ grSegs n g t)) :=
  ins_gr (n := n) (r := (15, 5 * n + 2)) (ys := g.insts) (i := i)
    (l1 := [((15, 5 * n), [g.defn]), ((15, 5 * n + 1), g.inputs)])
    (l2 := [((15, 5 * n + 3), g.outputs), ((15, 5 * n + 4), t)]) hA
    (by simp) (by simp [Rank.le]) (by simp [Rank.le])

theorem ins_gr_outputs (n : Nat) (g : OpenGraph) (t : List Instr) (i : Instr) {A : List Seg}
    (hA : ∀ p ∈ A, p.1.le (15, 5 * n) = true) :
    flat (A ++ grSegs n { g with outputs := g.outputs ++ [i] } t) =
      Spec.insert ((15, 5 * n + 3), infoOf i) (flat (A ++ grSegs n g t)) :=
  ins_gr (n := n) (r := (15, 5 * n + 3)) (ys := g.outputs) (i := i)
    (l1 := [((15, 5 * n), [g.defn]), ((15, 5 * n + 1), g.inputs), ((15, 5 * n + 2), g.insts)])
    (l2 := [((15, 5 * n + 4), t)]) hA
    (by simp) (by simp [Rank.le]) (by simp [Rank.le])

theorem ins_gr_tail (n : Nat) (g : OpenGraph) (t : List Instr) (i : Instr) {A : List Seg}
    (hA : ∀ p ∈ A, p.1.le (15, 5 * n) = true) :
    flat (A ++ grSegs n g (t ++ [i])) =
      Spec.insert ((15, 5 * n + 4), infoOf i) (flat (A ++ grSegs n g t)) :=
  ins_gr (n := n) (r := (15, 5 * n + 4)) (ys := t) (i := i)
    (l1 := [((15, 5 * n), [g.defn]), ((15, 5 * n + 1), g.inputs), ((15, 5 * n + 2), g.insts),
      ((15, 5 * n + 3), g.outputs)])
    (l2 := []) hA
    (by simp) (by simp [Rank.le]) (by simp [Rank.le])

theorem addToLastFn_append : ∀ (a : List Fn) (f : Fn) (i : Instr),
    addToLastFn (a ++ [f]) i = a ++ [{ f with nonSem := f.nonSem ++ [i] }]
  | [], f, i => rfl
  | [b], f, i => rfl
  | b :: c :: a, f, i => by
    have := addToLastFn_append (c :: a) f i
    simp only [List.cons_append, addToLastFn] at this ⊢
    rw [this]

theorem addToLastGraph_append : ∀ (a : List Graph) (f : Graph) (i : Instr),
    addToLastGraph (a ++ [f]) i = a ++ [{ f with nonSem := f.nonSem ++ [i] }]
  | [], f, i => rfl
  | [b], f, i => rfl
  | b :: c :: a, f, i => by
    have := addToLastGraph_append (c :: a) f i
    simp only [List.cons_append, addToLastGraph] at this ⊢
    rw [this]

end Verif.Loader
