import Verif.Link.Shift
/-!
C36, merging: the merged module has the instructions of all inputs, and unique ids.
-/
set_option linter.unusedSimpArgs false
set_option linter.unusedVariables false
namespace Verif.Link
open Verif.StringLit (Word Byte)
open Verif.Binary (OT)
open Verif.Ir
open Spec

/-- What the linker leaves out: the memory models after the first, the addressing modes of
    sampled images, and all about graphs. -/
def Spec.dropped (mods : List Module) : List Inst :=
  (mods.drop 1).flatMap (·.memoryModel.toList) ++ mods.flatMap (·.samplerMode.toList) ++
    mods.flatMap (·.graphEntryPoints) ++ mods.flatMap (fun m => m.graphs.flatMap Graph.visit)

/-- Two instructions with the same addressing and memory model. -/
def Spec.SameMemoryModel (i j : Inst) : Prop := wordAt i 0 = wordAt j 0 ∧ wordAt i 1 = wordAt j 1

theorem memoryModel_go {mm i : Inst} {ms : List Module} (h : memoryModel.go mm ms = .ok i) :
    i = mm ∧ ∀ m ∈ ms, ∃ j, m.memoryModel = some j ∧ SameMemoryModel j mm := by
  induction ms with
  | nil => cases h; exact ⟨rfl, by simp⟩
  | cons m ms ih =>
    unfold memoryModel.go at h
    split at h
    · cases h
    · rename_i j hj
      split at h
      · rename_i a b c d ha hb hc hd
        split at h
        · cases h
        · rename_i hn
          obtain ⟨h1, h2⟩ := ih h
          refine ⟨h1, ?_⟩
          intro x hx
          rcases List.mem_cons.mp hx with rfl | hx
          · refine ⟨j, hj, ?_, ?_⟩
            · rw [hc, ha]; congr 1; exact Decidable.byContradiction fun h => hn (.inl h)
            · rw [hd, hb]; congr 1; exact Decidable.byContradiction fun h => hn (.inr h)
          · exact h2 x hx
      · cases h

theorem memoryModel_ok {mods : List Module} {i : Inst} (h : memoryModel mods = .ok i) :
    (∃ m ms, mods = m :: ms ∧ m.memoryModel = some i) ∧
      ∀ m ∈ mods, ∃ j, m.memoryModel = some j ∧ SameMemoryModel j i := by
  unfold memoryModel at h
  split at h
  · cases h
  · rename_i m ms
    split at h
    · cases h
    · rename_i mm hm
      obtain ⟨rfl, h2⟩ := memoryModel_go h
      refine ⟨⟨m, ms, rfl, hm⟩, ?_⟩
      intro x hx
      rcases List.mem_cons.mp hx with rfl | hx
      · exact ⟨i, hm, rfl, rfl⟩
      · exact h2 x hx

theorem entryPoints_ok {seen : List (Word × List Byte)} {is : List Inst} (h : entryPoints seen is = .ok ()) :
    ∃ keys : List (Word × List Byte), is.map entryKey = keys.map some ∧ keys.Nodup ∧ ∀ k ∈ keys, k ∉ seen := by
  induction is generalizing seen with
  | nil => exact ⟨[], rfl, List.nodup_nil, by simp⟩
  | cons i is ih =>
    unfold entryPoints at h
    split at h
    · cases h
    · rename_i k hk
      split at h
      · cases h
      · rename_i hn
        obtain ⟨keys, h1, h2, h3⟩ := ih h
        refine ⟨k :: keys, by simp [hk, h1], ?_, ?_⟩
        · rw [List.nodup_cons]
          refine ⟨fun hm => ?_, h2⟩
          exact h3 k hm (by simp)
        · intro x hx
          rcases List.mem_cons.mp hx with rfl | hx
          · exact hn
          · intro hs; exact h3 x hx (by simp [hs])

theorem count_sections (a : Inst) (mods : List Module) :
    (mods.flatMap Module.visit).count a =
      (mods.flatMap (·.capabilities)).count a + (mods.flatMap (·.extensions)).count a +
      (mods.flatMap (·.imports)).count a + (mods.flatMap (·.memoryModel.toList)).count a +
      (mods.flatMap (·.samplerMode.toList)).count a + (mods.flatMap (·.entryPoints)).count a +
      (mods.flatMap (·.graphEntryPoints)).count a + (mods.flatMap (·.executionModes)).count a +
      (mods.flatMap (·.debugs1)).count a + (mods.flatMap (·.debugs2)).count a +
      (mods.flatMap (·.debugs3)).count a + (mods.flatMap (·.debugInfo)).count a +
      (mods.flatMap (·.annotations)).count a + (mods.flatMap (·.typesValues)).count a +
      (mods.flatMap (fun m => m.functions.flatMap Function.visit)).count a +
      (mods.flatMap (fun m => m.graphs.flatMap Graph.visit)).count a := by
  induction mods with
  | nil => simp
  | cons m mods ih =>
    simp only [List.flatMap_cons, List.count_append, ih]
    simp only [Module.visit, List.count_append]
    omega

/-- The merged module has exactly the instructions of the inputs, apart from those the
    linker leaves out, and an `OpModuleProcessed` from version 1.1 on; all modules have the
    same memory model; no two entry points have the same execution model and name. -/
theorem merge_spec {v b : Word} {mods : List Module} {m' : Module} (h : merge v b mods = .ok m') :
    m'.bound = b ∧
    (m'.visit ++ dropped mods).Perm
      ((if v.toNat ≥ 0x10100 then [processed] else []) ++ mods.flatMap Module.visit) ∧
    (∃ mm, ∀ m ∈ mods, ∃ j, m.memoryModel = some j ∧ SameMemoryModel j mm) ∧
    (∃ keys : List (Word × List Byte), m'.entryPoints.map entryKey = keys.map some ∧ keys.Nodup) := by
  unfold merge at h
  split at h
  · cases h
  · cases h
  · rename_i mm hmm
    split at h
    · cases h
    · cases h
    · rename_i hep
      simp only [Res.ok.injEq] at h
      subst h
      obtain ⟨⟨m, ms, rfl, hm⟩, hall⟩ := memoryModel_ok hmm
      refine ⟨rfl, ?_, ⟨mm, hall⟩, ?_⟩
      · rw [List.perm_iff_count]
        intro a
        have hc := count_sections a (m :: ms)
        have hmem : ((m :: ms).flatMap (·.memoryModel.toList)).count a =
            [mm].count a + (ms.flatMap (·.memoryModel.toList)).count a := by
          simp only [List.flatMap_cons, List.count_append, hm, Option.toList]
        rw [List.count_append, List.count_append, hc]
        rw [hmem]
        have h1 : (some mm).toList = [mm] := rfl
        have h2 : (none : Option Inst).toList = [] := rfl
        have h3 : List.drop 1 (m :: ms) = ms := rfl
        simp only [Module.visit, dropped, List.count_append, h1, h2, h3, List.flatMap_nil, List.count_nil,
          List.flatMap_assoc]
        omega
      · obtain ⟨keys, h1, h2, _⟩ := entryPoints_ok hep
        exact ⟨keys, h1, h2⟩

/-- Result ids of instructions. -/
def resultsL (l : List Inst) : List Word :=
  l.flatMap (fun i => (i.core.operands.filter (·.type == .RESULT_ID)).flatMap (fun o => o.words.take 1))

theorem mem_results_ids {l : List Inst} {x : Word} (h : x ∈ resultsL l) : x ∈ l.flatMap idsOf := by
  unfold resultsL at h
  obtain ⟨i, hi, hx⟩ := List.mem_flatMap.mp h
  obtain ⟨o, ho, hx⟩ := List.mem_flatMap.mp hx
  refine List.mem_flatMap.mpr ⟨i, hi, List.mem_flatMap.mpr ⟨o, ?_, hx⟩⟩
  rw [List.mem_filter] at ho ⊢
  refine ⟨ho.1, ?_⟩
  have : o.type = .RESULT_ID := by simpa using ho.2
  rw [this]
  rfl

theorem nodup_flatMap {α β : Type} (l : List α) (f : α → List β) (h1 : ∀ a ∈ l, (f a).Nodup)
    (h2 : ∀ (j k : Nat) a b, l[j]? = some a → l[k]? = some b → ∀ x ∈ f a, x ∈ f b → j = k) :
    (l.flatMap f).Nodup := by
  induction l with
  | nil => simp
  | cons a l ih =>
    rw [List.flatMap_cons, List.nodup_append]
    refine ⟨h1 a (by simp), ih (fun b hb => h1 b (by simp [hb])) ?_, ?_⟩
    · intro j k x y hx hy z hz hz'
      have := h2 (j + 1) (k + 1) x y (by simpa using hx) (by simpa using hy) z hz hz'
      omega
    · rintro x hx y hy rfl
      obtain ⟨b, hb, hy⟩ := List.mem_flatMap.mp hy
      obtain ⟨k, hk, rfl⟩ := List.getElem_of_mem hb
      have := h2 0 (k + 1) a l[k] rfl (by simp [hk]) x hx hy
      omega

theorem nodup_map_add {l : List Word} (h : l.Nodup) (off : Word) : (l.map (· + off)).Nodup := by
  rw [List.nodup_iff_pairwise_ne] at *
  rw [List.pairwise_map]
  exact h.imp (fun {a b} hne he => hne (by
    have := congrArg (· - off) he
    simpa using this))

/-- C36, phases 1 to 3 of linking.  If each module has distinct result ids, the merged module
    has; all its ids are below its bound; and if each module defines the ids it uses, so does
    the merged one (for modules without the parts the linker leaves out). -/
theorem combine_spec {high : Bool} {ins : List (Word × Module)} {m' : Module}
    (h : combine high ins = .ok m') (hlen : ins.length < 2 ^ 31) (hok : ∀ e ∈ ins, Ok e.2)
    (hin : ∀ e ∈ ins, InBound e.2) :
    ((∀ e ∈ ins, (results e.2).Nodup) → (results m').Nodup) ∧
    (∀ x ∈ ids m', 1 ≤ x.toNat ∧ x.toNat < m'.bound.toNat) ∧
    m'.bound.toNat = 1 + offset (ins.map (·.2)) ins.length ∧
    ((∀ e ∈ ins, ∀ x ∈ ids e.2, x ∈ results e.2) →
      (∀ e ∈ ins, e.2.samplerMode = none ∧ e.2.graphEntryPoints = [] ∧ e.2.graphs = [] ∧
        ∀ i ∈ e.2.memoryModel, idsOf i = []) →
      ∀ x ∈ ids m', x ∈ results m') := by
  unfold combine at h
  split at h
  · cases h
  · cases h
  · rename_i mods bound hs
    split at h
    · cases h
    · cases h
    · rename_i v hv
      split at h
      · cases h
      · have hok' : ∀ m ∈ ins.map (·.2), Ok m := by
          intro m hm; obtain ⟨e, he, rfl⟩ := List.mem_map.mp hm; exact hok e he
        have hin' : ∀ m ∈ ins.map (·.2), InBound m := by
          intro m hm; obtain ⟨e, he, rfl⟩ := List.mem_map.mp hm; exact hin e he
        have hb' : ∀ m ∈ ins.map (·.2), 1 ≤ m.bound.toNat := fun m hm => (hin' m hm).1
        obtain ⟨s1, s2, s3, s4, s5⟩ := shiftIds_spec hs (by simpa using hlen) hok' hin'
        obtain ⟨g1, g2, _, _⟩ := merge_spec h
        have hproc : resultsL (if v.toNat ≥ 0x10100 then [processed] else []) = [] ∧
            (if v.toNat ≥ 0x10100 then [processed] else []).flatMap idsOf = [] := by
          split
          · exact ⟨rfl, rfl⟩
          · exact ⟨rfl, rfl⟩
        have hres : (results m' ++ resultsL (dropped mods)).Perm (mods.flatMap results) := by
          have := List.Perm.flatMap_right (fun i => (i.core.operands.filter (·.type == .RESULT_ID)).flatMap
            (fun o => o.words.take 1)) g2
          rw [List.flatMap_append, List.flatMap_append] at this
          have hp := hproc.1
          unfold resultsL at hp
          rw [hp, List.nil_append, List.flatMap_assoc] at this
          exact this
        have hids : (ids m' ++ (dropped mods).flatMap idsOf).Perm (mods.flatMap ids) := by
          have := List.Perm.flatMap_right idsOf g2
          rw [List.flatMap_append, List.flatMap_append] at this
          rw [hproc.2, List.nil_append, List.flatMap_assoc] at this
          exact this
        have hshift : ∀ (k : Nat) m, mods[k]? = some m → ∃ e ∈ ins, ∃ off, m = shiftModule off e.2 := by
          intro k m hm
          rw [shiftIds_getElem hs hb'] at hm
          obtain ⟨m0, h0, rfl⟩ := Option.map_eq_some_iff.mp hm
          obtain ⟨e, he, rfl⟩ := List.mem_map.mp (List.mem_of_getElem? h0)
          exact ⟨e, he, _, rfl⟩
        have hshift' : ∀ m ∈ mods, ∃ e ∈ ins, ∃ off, m = shiftModule off e.2 := by
          intro m hm
          obtain ⟨k, hk⟩ := List.mem_iff_getElem?.mp hm
          exact hshift k m hk
        refine ⟨?_, ?_, ?_, ?_⟩
        · intro hnd
          have hnd' : (mods.flatMap results).Nodup := by
            apply nodup_flatMap
            · intro m hm
              obtain ⟨e, he, off, rfl⟩ := hshift' m hm
              rw [results_shift _ _ (hok e he)]
              exact nodup_map_add (hnd e he) off
            · intro j k a b ha hb x hx hx'
              exact s4 j k a b ha hb x (mem_results_ids hx) (mem_results_ids hx')
          have := hres.nodup_iff.mpr hnd'
          exact (List.nodup_append.mp this).1
        · intro x hx
          have : x ∈ mods.flatMap ids := hids.mem_iff.mp (by simp [hx])
          obtain ⟨m, hm, hx⟩ := List.mem_flatMap.mp this
          rw [g1]
          exact s5 m hm x hx
        · rw [g1, s2]; simp
        · intro hdef hplain x hx
          have : x ∈ mods.flatMap ids := hids.mem_iff.mp (by simp [hx])
          obtain ⟨m, hm, hx⟩ := List.mem_flatMap.mp this
          obtain ⟨e, he, off, rfl⟩ := hshift' m hm
          have hr : x ∈ results (shiftModule off e.2) := by
            rw [ids_shift _ _ (hok e he)] at hx
            rw [results_shift _ _ (hok e he)]
            obtain ⟨y, hy, rfl⟩ := List.mem_map.mp hx
            exact List.mem_map_of_mem (hdef e he y hy)
          have : x ∈ results m' ++ resultsL (dropped mods) :=
            hres.mem_iff.mpr (List.mem_flatMap.mpr ⟨_, hm, hr⟩)
          rcases List.mem_append.mp this with h | h
          · exact h
          · exfalso
            have hx2 := mem_results_ids h
            obtain ⟨i, hi, hxi⟩ := List.mem_flatMap.mp hx2
            have hplain' : ∀ m ∈ mods, m.samplerMode = none ∧ m.graphEntryPoints = [] ∧ m.graphs = [] ∧
                ∀ i ∈ m.memoryModel, idsOf i = [] := by
              intro m hm
              obtain ⟨e, he, off, rfl⟩ := hshift' m hm
              obtain ⟨p1, p2, p3, p4⟩ := hplain e he
              refine ⟨by simp [shiftModule, Module.map, p1], by simp [shiftModule, Module.map, p2],
                by simp [shiftModule, Module.map, p3], ?_⟩
              intro i hi
              simp only [shiftModule, Module.map, Option.mem_def, Option.map_eq_some_iff] at hi
              obtain ⟨j, hj, rfl⟩ := hi
              have h1 := p4 j hj
              have h2 := filter_shift off j.core.operands OT.isId (fun _ => id) (hok e he j (by
                unfold Module.visit; rw [hj]; simp))
              unfold idsOf at h1 ⊢
              simp only [shiftInst]
              rw [h2, h1]
              rfl
            unfold dropped at hi
            simp only [List.mem_append, List.mem_flatMap, Option.mem_toList] at hi
            rcases hi with ((⟨m, hm, hi⟩ | ⟨m, hm, hi⟩) | ⟨m, hm, hi⟩) | ⟨m, hm, g, hg, hi⟩
            · rw [(hplain' m (List.mem_of_mem_drop hm)).2.2.2 i hi] at hxi; cases hxi
            · rw [(hplain' m hm).1] at hi; cases hi
            · rw [(hplain' m hm).2.1] at hi; cases hi
            · rw [(hplain' m hm).2.2.1] at hg; cases hg

/-! ### Example and deviations -/

/-- `OpMemoryModel Logical GLSL450`. -/
def exMM : Inst := ⟨⟨14, [⟨.ADDRESSING_MODEL, [0]⟩, ⟨.MEMORY_MODEL, [1]⟩], 0, 0⟩, []⟩

/-- A module with the type and the constants given. -/
def exModule (bound : Word) (tv : List Inst) : Module :=
  ⟨bound, [], [], [], some exMM, none, [], [], [], [], [], [], [], [], tv, [], [], []⟩

/-- `%1 = OpTypeInt 32 0`. -/
def exInt : Inst := ⟨⟨21, [⟨.RESULT_ID, [1]⟩, ⟨.LITERAL_INTEGER, [32]⟩, ⟨.LITERAL_INTEGER, [0]⟩], 0, 0⟩, []⟩

/-- `%2 = OpConstant %1 7`, preceded by `lines`. -/
def exConst (lines : List Core) : Inst :=
  ⟨⟨43, [⟨.TYPE_ID, [1]⟩, ⟨.RESULT_ID, [2]⟩, ⟨.TYPED_LITERAL_NUMBER, [7]⟩], 0, 0⟩, lines⟩

def exModules : List (Word × Module) :=
  [(0x10000, exModule 3 [exInt, exConst []]), (0x10000, exModule 3 [exInt, exConst []])]

/-- Two modules with ids 1 and 2 are linked into one with ids 1 to 4. -/
example : (∃ m, combine false exModules = .ok m ∧ results m = [1, 2, 3, 4] ∧ m.bound = 5) ∧
    (∀ e ∈ exModules, Ok e.2 ∧ InBound e.2 ∧ (results e.2).Nodup ∧ ∀ x ∈ ids e.2, x ∈ results e.2) := by
  refine ⟨⟨_, rfl, by decide, by decide⟩, ?_⟩
  have hids : ids (exModule 3 [exInt, exConst []]) = [1, 1, 2] := by decide
  have hres : results (exModule 3 [exInt, exConst []]) = [1, 2] := by decide
  intro e he
  have : e.2 = exModule 3 [exInt, exConst []] := by
    simp only [exModules, List.mem_cons, List.not_mem_nil, or_false] at he
    rcases he with rfl | rfl <;> rfl
  rw [this, hres]
  refine ⟨?_, ⟨by decide, ?_⟩, by decide, ?_⟩
  · intro i hi o ho _
    simp only [exModule, Module.visit, List.nil_append, Option.toList, List.singleton_append, List.append_nil,
      List.flatMap_nil, List.mem_cons, List.not_mem_nil, or_false] at hi
    rcases hi with rfl | rfl | rfl <;>
      simp only [exMM, exInt, exConst, List.mem_cons, List.not_mem_nil, or_false] at ho
    · rcases ho with rfl | rfl <;> simp
    · rcases ho with rfl | rfl | rfl <;> simp
    · rcases ho with rfl | rfl | rfl <;> simp
  · rw [hids]
    intro x hx
    simp only [List.mem_cons, List.not_mem_nil, or_false] at hx
    rcases hx with rfl | rfl | rfl <;> exact ⟨by decide, by decide⟩
  · rw [hids]
    intro x hx
    simp only [List.mem_cons, List.not_mem_nil, or_false] at hx ⊢
    rcases hx with h | h | h <;> simp [h]

/-- An `OpLine` that names the source file 1 of its own module. -/
def exLine : Core := ⟨8, [⟨.ID, [1]⟩, ⟨.LITERAL_INTEGER, [10]⟩, ⟨.LITERAL_INTEGER, [1]⟩], 0, 0⟩

/-- `%1 = OpString "f"`. -/
def exFile : Inst := ⟨⟨7, [⟨.RESULT_ID, [1]⟩, ⟨.LITERAL_STRING, [0x66]⟩], 0, 0⟩, []⟩

/-- Deviation from C36: the line instructions attached to an instruction keep their ids.  In the
    second of these modules line 10 belongs to file 1, a string; in the linked module the
    string has become 3 and the line belongs to file 1 still, which is a type. -/
theorem lines_not_shifted :
    let second : Module := { exModule 4 [⟨⟨21, [⟨.RESULT_ID, [2]⟩, ⟨.LITERAL_INTEGER, [32]⟩,
      ⟨.LITERAL_INTEGER, [0]⟩], 0, 0⟩, [exLine]⟩] with debugs1 := [exFile] }
    ∃ m, combine false [(0x10000, exModule 3 [exInt, exConst []]), (0x10000, second)] = .ok m ∧
      m.debugs1.map resultId = [3] ∧ (getDef m 1).map (·.core.opcode) = some 21 ∧
      m.typesValues.flatMap (fun i => i.lines) = [exLine] := by
  refine ⟨_, rfl, by decide, by decide, by decide⟩

end Verif.Link
