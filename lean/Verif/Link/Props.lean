import Verif.Link.Merge
import Verif.Link.Pairs
/-!
C36, C37: ids, merging and symbols in the linker.  The theorems are `shiftIds_spec` and
`shiftIds_fails` (Shift), `merge_spec` and `combine_spec` (Merge) and `importExportPairs_spec`
(Pairs); here is what they say of a pair of modules.
-/
set_option linter.unusedSimpArgs false
namespace Verif.Link
open Verif.StringLit (Word Byte)
open Verif.Ir
open Spec

/-- If linking succeeds without partial linkage and without multiple definitions, then each import
    is paired with a definition of its name, and no other definition of that name exists. -/
theorem import_unique {m : Module} {builtIn : Word → Bool} {r : List (Info × Info)}
    (h : importExportPairs m builtIn false false = .ok r) :
    ∃ l, Symbols m builtIn m.annotations l ∧ r.map (·.1) = imports l ∧
      ∀ e ∈ r, e.1.name = e.2.name ∧ (∃ k, (k, e.2) ∈ l ∧ (k = linkExport ∨ k = linkOnce)) ∧
        ∀ j, (linkExport, j) ∈ l → j.name = e.1.name → j = e.2 := by
  obtain ⟨l, hl, ⟨h1, h2, h3⟩, rfl⟩ := (importExportPairs_spec m builtIn false false r).mp h
  refine ⟨l, hl, ?_, ?_⟩
  · have : ∀ is : List Info, (∀ i ∈ is, (definition l i.name).isSome) →
        (is.filterMap (fun i => (definition l i.name).map (fun e => (i, e)))).map (·.1) = is := by
      intro is
      induction is with
      | nil => intro _; rfl
      | cons i is ih =>
        intro hs
        obtain ⟨e, he⟩ := Option.isSome_iff_exists.mp (hs i (by simp))
        simp [List.filterMap_cons, he, ih (fun j hj => hs j (by simp [hj]))]
    exact this _ (h3 rfl)
  · intro e he
    obtain ⟨i, -, hi⟩ := List.mem_filterMap.mp he
    obtain ⟨d, hd, rfl⟩ := Option.map_eq_some_iff.mp hi
    simp only
    unfold definition at hd
    cases hf : l.find? (fun e => e.1 = linkExport ∧ e.2.name = i.name) with
    | some x =>
      rw [hf] at hd
      simp only [Option.some.injEq] at hd
      subst hd
      have hx := List.find?_some hf
      have hm := List.mem_of_find?_eq_some hf
      simp only [decide_eq_true_eq] at hx
      refine ⟨hx.2.symm, ⟨x.1, hm, Or.inl hx.1⟩, ?_⟩
      intro j hj hn
      have hlen := h2 rfl i.name
      have a1 : j ∈ exportsOf l i.name := by
        unfold exportsOf
        exact List.mem_map.mpr ⟨(linkExport, j), List.mem_filter.mpr ⟨hj, by simp [hn]⟩, rfl⟩
      have a2 : x.2 ∈ exportsOf l i.name := by
        unfold exportsOf
        exact List.mem_map.mpr ⟨x, List.mem_filter.mpr ⟨hm, by simp [hx]⟩, rfl⟩
      match hE : exportsOf l i.name with
      | [] => rw [hE] at a1; cases a1
      | [a] =>
        rw [hE] at a1 a2
        simp only [List.mem_singleton] at a1 a2
        rw [a1, a2]
      | a :: b :: c => rw [hE] at hlen; simp at hlen
    | none =>
      rw [hf] at hd
      obtain ⟨x, hx', rfl⟩ := Option.map_eq_some_iff.mp hd
      have hx := List.find?_some hx'
      have hm := List.mem_of_find?_eq_some hx'
      simp only [decide_eq_true_eq] at hx
      refine ⟨hx.2.symm, ⟨x.1, hm, Or.inr hx.1⟩, ?_⟩
      intro j hj hn
      exact absurd (hn.trans hx.2.symm) (h1 _ hj _ hm rfl hx.1)

/-- `OpDecorate %id LinkageAttributes "f" kind`. -/
def exLinkage (id kind : Word) : Inst :=
  ⟨⟨71, [⟨.ID, [id]⟩, ⟨.DECORATION, [41]⟩, ⟨.LITERAL_STRING, [0x66]⟩, ⟨.LINKAGE_TYPE, [kind]⟩], 0, 0⟩, []⟩

/-- `%id = OpVariable %3 CrossWorkgroup`. -/
def exVar (id : Word) : Inst :=
  ⟨⟨59, [⟨.TYPE_ID, [3]⟩, ⟨.RESULT_ID, [id]⟩, ⟨.STORAGE_CLASS, [5]⟩], 0, 0⟩, []⟩

/-- A module with the linkage given and the variables 1 and 2. -/
def exLinked (ds : List Inst) : Module := { exModule 4 [exVar 1, exVar 2] with annotations := ds }

/-- An import of `f` is paired with the export of `f`. -/
example : (match importExportPairs (exLinked [exLinkage 1 1, exLinkage 2 0]) (fun _ => false) false false with
    | .ok r => r.map (fun e => (e.1.id, e.2.id)) | _ => []) = [(1, 2)] := by decide

/-- An import without an export is an error, unless partial linkage is allowed. -/
example : importExportPairs (exLinked [exLinkage 1 1]) (fun _ => false) false false = .err ∧
    importExportPairs (exLinked [exLinkage 1 1]) (fun _ => false) true false = .ok [] := ⟨by rfl, by rfl⟩

/-- Two exports of a name are an error, unless multiple definitions are allowed. -/
example : importExportPairs (exLinked [exLinkage 1 0, exLinkage 2 0]) (fun _ => false) false false = .err ∧
    importExportPairs (exLinked [exLinkage 1 0, exLinkage 2 0]) (fun _ => false) false true = .ok [] :=
  ⟨by rfl, by rfl⟩

end Verif.Link
