import Verif.DefUse.Replace

/-!
# C31: the def-use manager is exact after every history of edits
-/
namespace Verif.DefUse

namespace Spec

/-- The operand refers to an id defined elsewhere. -/
def Refers (k : Kind) : Prop := k ≠ .resultId ∧ k ≠ .lit

/-- Instruction `i` of the module defines `id`. -/
def Defines (w : World) (i : Ptr) (id : Id) : Prop :=
  id ≠ 0 ∧ ∃ inst, w i = some inst ∧ inst.result = id

/-- Operand `k` of instruction `u` of the module refers to `id`. -/
def UsesAt (w : World) (u : Ptr) (k : Nat) (id : Id) : Prop :=
  ∃ inst kd, w u = some inst ∧ inst.operands[k]? = some (kd, id) ∧ Refers kd

def Uses (w : World) (u : Ptr) (id : Id) : Prop := ∃ k, UsesAt w u k id

def Defined (w : World) (id : Id) : Prop := ∃ i, Defines w i id

/-- The manager answers every question about the module `w` correctly. -/
structure Exact (w : World) (m : Mgr) : Prop where
  getDef : ∀ id i, m.getDef id = some i ↔ Defines w i id
  users : ∀ id, Defined w id →
    ∃ us, m.forEachUser id = some us ∧ us.Nodup ∧ ∀ u, u ∈ us ↔ Uses w u id
  uses : ∀ id, Defined w id →
    ∃ ps, m.forEachUse w id = some ps ∧ ps.Nodup ∧ ∀ u k, (u, k) ∈ ps ↔ UsesAt w u k id

open Classical in
/-- `inst` with `after` instead of `before` in every operand that refers to an id. -/
noncomputable def rename (before after : Id) (inst : Inst) : Inst :=
  { inst with
    type := if inst.type = before then after else inst.type
    ins := inst.ins.map fun p => if Refers p.1 ∧ p.2 = before then (p.1, after) else p }

/-- What an edit does to the module. -/
noncomputable def after (w : World) : Op → World
  | .add i inst => upd w i (some inst)
  | .kill i => upd w i none
  | .edit i type ins | .update i type ins =>
    upd w i ((w i).map fun inst => { inst with type := type, ins := ins })
  | .replace b a pred =>
    fun u => (w u).map fun inst => if pred u ∧ b ≠ a then rename b a inst else inst

/-- What the code requires of an edit: ids are defined once and ids the manager is shown
are defined. -/
def Legal (w : World) : Op → Prop
  | .add i inst =>
    w i = none ∧
    (inst.result ≠ 0 → ¬ Defined w inst.result ∧ ∀ u, ¬ Uses w u inst.result) ∧
    ∀ (k : Nat) (kd : Kind) (id : Id), inst.operands[k]? = some (kd, id) → Refers kd →
      Defined (upd w i (some inst)) id
  | .kill i => w i ≠ none
  | .edit i type ins | .update i type ins =>
    ∃ inst, w i = some inst ∧
      ∀ (k : Nat) (kd : Kind) (id : Id), { inst with type := type, ins := ins : Inst }.operands[k]? = some (kd, id) →
        Refers kd → Defined w id
  | .replace b a pred =>
    b = a ∨ (Defined w b ∧ Defined w a ∧
      ∀ u, pred u = true → Uses w u b → ∀ id, Uses w u id → Defined w id)

def LegalAll (w : World) : List Op → Prop
  | [] => True
  | op :: ops => Legal w op ∧ LegalAll (after w op) ops

noncomputable def afterAll (w : World) : List Op → World
  | [] => w
  | op :: ops => afterAll (after w op) ops

/-- A module that can be analysed: distinct objects, ids defined once, and no reference to
an id defined nowhere. -/
structure GoodModule (is : List (Ptr × Inst)) : Prop where
  objects : (is.map (·.1)).Nodup
  single : ∀ a b : Nat, ∀ x y : Ptr × Inst, is[a]? = some x → is[b]? = some y →
    x.2.result = y.2.result → x.2.result ≠ 0 → a = b
  closed : ∀ u id, Uses (fun p => is.lookup p) u id → Defined (fun p => is.lookup p) id

end Spec

theorem refers_iff (k : Kind) : Spec.Refers k ↔ isUseType k = true := by
  cases k <;> simp [Spec.Refers, isUseType]

theorem defined_iff (w : World) (id : Id) : Spec.Defined w id ↔ Def w id := by
  unfold Spec.Defined Spec.Defines Def
  constructor
  · rintro ⟨i, h0, inst, h1, h2⟩; exact ⟨h0, i, inst, h1, h2⟩
  · rintro ⟨h0, i, inst, h1, h2⟩; exact ⟨i, h0, inst, h1, h2⟩

theorem usesAt_iff (w : World) (u : Ptr) (k : Nat) (id : Id) :
    Spec.UsesAt w u k id ↔ ∃ inst, w u = some inst ∧ k ∈ useIndices id inst := by
  unfold Spec.UsesAt
  simp only [useIndices_mem, refers_iff]
  constructor
  · rintro ⟨inst, kd, h1, h2, h3⟩; exact ⟨inst, h1, kd, h2, h3⟩
  · rintro ⟨inst, h1, kd, h2, h3⟩; exact ⟨inst, kd, h1, h2, h3⟩

theorem uses_iff (w : World) (u : Ptr) (id : Id) :
    Spec.Uses w u id ↔ ∃ inst, w u = some inst ∧ id ∈ useIds inst := by
  unfold Spec.Uses
  simp only [usesAt_iff, mem_useIds]
  constructor
  · rintro ⟨k, inst, h1, h2⟩; exact ⟨inst, h1, k, h2⟩
  · rintro ⟨inst, h1, k, h2⟩; exact ⟨k, inst, h1, h2⟩

theorem exact_of_inv {w : World} {m : Mgr} (h : Inv w w m) : Spec.Exact w m := by
  refine ⟨fun id i => h.d id i, ?_, ?_⟩
  · intro id hd
    obtain ⟨us, h1, h2, h3⟩ := users_of h ((defined_iff w id).mp hd)
    exact ⟨us, h1, h2, fun u => by rw [h3, uses_iff]⟩
  · intro id hd
    obtain ⟨ps, h1, h2, h3⟩ := uses_of h ((defined_iff w id).mp hd)
    exact ⟨ps, h1, h2, fun u k => by rw [h3, usesAt_iff]⟩

theorem rename_eq (b a : Id) (inst : Inst) : Spec.rename b a inst = renameInst b a inst := by
  unfold Spec.rename renameInst
  congr 1
  apply List.map_congr_left
  intro p _
  simp only [refers_iff]

theorem operand_useIds {inst : Inst} {id : Id} (h : id ∈ useIds inst) :
    ∃ (k : Nat) (kd : Kind), inst.operands[k]? = some (kd, id) ∧ Spec.Refers kd := by
  obtain ⟨k, hk⟩ := (mem_useIds id inst).mp h
  obtain ⟨kd, h1, h2⟩ := (useIndices_mem _ _ _).mp hk
  exact ⟨k, kd, h1, (refers_iff kd).mpr h2⟩

theorem exec_inv {w : World} {m : Mgr} (h : Inv w w m) (op : Op) (hl : Spec.Legal w op) :
    ∃ m', exec w m op = some (Spec.after w op, m') ∧ Inv (Spec.after w op) (Spec.after w op) m' := by
  cases op with
  | add i inst =>
    obtain ⟨h1, h2, h3⟩ := hl
    obtain ⟨m', h4, h5⟩ := add_spec h h1 (fun h0 hd => (h2 h0).1 ((defined_iff _ _).mpr hd))
      (fun h0 u ui hu hm => (h2 h0).2 u ((uses_iff _ _ _).mpr ⟨ui, hu, hm⟩)) (by
        intro id hid
        obtain ⟨k, kd, h6, h7⟩ := operand_useIds hid
        obtain ⟨j, h8, x, h9, h10⟩ := h3 k kd id h6 h7
        by_cases hj : j = i
        · subst hj; rw [upd_self] at h9; cases h9
          exact Or.inl ⟨h8, h10.symm⟩
        · rw [upd_other _ _ hj] at h9; exact Or.inr ⟨h8, j, x, h9, h10⟩)
    exact ⟨m', by simp only [exec, h4]; rfl, h5⟩
  | kill i =>
    obtain ⟨inst, hi⟩ := Option.ne_none_iff_exists'.mp hl
    exact ⟨_, by simp only [exec, hi]; rfl, kill_spec h hi⟩
  | edit i type ins =>
    obtain ⟨inst, hi, hd⟩ := hl
    obtain ⟨m', h1, h2⟩ := edit_spec (inst' := { inst with type := type, ins := ins }) h hi rfl (by
      intro id hid
      obtain ⟨k, kd, h6, h7⟩ := operand_useIds hid
      exact (defined_iff _ _).mp (hd k kd id h6 h7))
    refine ⟨m', ?_, ?_⟩
    · simp only [exec, hi, h1, Spec.after, Option.map_some]
    · simp only [Spec.after, hi, Option.map_some]; exact h2
  | update i type ins =>
    obtain ⟨inst, hi, hd⟩ := hl
    obtain ⟨m', h1, h2⟩ := update_spec (inst' := { inst with type := type, ins := ins }) h hi rfl (by
      intro id hid
      obtain ⟨k, kd, h6, h7⟩ := operand_useIds hid
      exact (defined_iff _ _).mp (hd k kd id h6 h7))
      (upd w i (some { inst with type := type, ins := ins }))
    refine ⟨m', ?_, ?_⟩
    · simp only [exec, hi, h1, Spec.after, Option.map_some]
    · simp only [Spec.after, hi, Option.map_some]; exact h2
  | replace b a pred =>
    by_cases hba : b = a
    · have hw : Spec.after w (.replace b a pred) = w := by
        funext u
        simp only [Spec.after]
        cases w u with
        | none => rfl
        | some x => simp [hba]
      rw [hw]
      exact ⟨m, by simp only [exec, replaceAllUses, hba, if_true], h⟩
    · rcases hl with hl | ⟨h1, h2, h3⟩
      · exact absurd hl hba
      · have hw : Spec.after w (.replace b a pred) =
            (fun u => (w u).map fun inst => if pred u then renameInst b a inst else inst) := by
          funext u
          simp only [Spec.after, rename_eq]
          congr 1
          funext x
          cases pred u <;> simp [hba]
        rw [hw]
        exact replace_spec h pred hba ((defined_iff _ _).mp h2) ((defined_iff _ _).mp h1) (by
          intro u inst hu hp hm id hid
          exact (defined_iff _ _).mp (h3 u hp ((uses_iff _ _ _).mpr ⟨inst, hu, hm⟩) id
            ((uses_iff _ _ _).mpr ⟨inst, hu, hid⟩)))

theorem run_inv {w : World} {m : Mgr} (h : Inv w w m) (ops : List Op)
    (hl : Spec.LegalAll w ops) :
    ∃ m', run w m ops = some (Spec.afterAll w ops, m') ∧
      Inv (Spec.afterAll w ops) (Spec.afterAll w ops) m' := by
  induction ops generalizing w m with
  | nil => exact ⟨m, rfl, h⟩
  | cons op ops ih =>
    obtain ⟨m1, h1, h2⟩ := exec_inv h op hl.1
    obtain ⟨m', h3, h4⟩ := ih h2 hl.2
    refine ⟨m', ?_, h4⟩
    unfold run; rw [h1]; exact h3

theorem build_inv {is : List (Ptr × Inst)} (hg : Spec.GoodModule is) :
    ∃ m, build is = some m ∧ Inv (worldOf is) (worldOf is) m := by
  apply build_spec is hg.objects
  · rw [List.pairwise_filter]
    rw [List.pairwise_iff_getElem]
    intro a b ha hb hab h1 h2 he
    have := hg.single a b _ _ (List.getElem?_eq_getElem ha) (List.getElem?_eq_getElem hb) he
      (by simpa using h1)
    omega
  · rintro ⟨i, inst⟩ hp id hid
    have := hg.closed i id ((uses_iff _ _ _).mpr
      ⟨inst, (lookup_iff hg.objects).mpr hp, hid⟩)
    exact (defined_iff _ _).mp this

/-- **C31.** Analyse a module, then edit it by any legal history of additions, kills,
operand changes and replacements of ids. No assertion fails, the module is what the edits
say, and the manager reports for every id exactly its definition, exactly its users and
exactly the operands that refer to it, each once. -/
theorem defUse_exact (is : List (Ptr × Inst)) (hg : Spec.GoodModule is) (ops : List Op)
    (hl : Spec.LegalAll (fun p => is.lookup p) ops) :
    ∃ m m', build is = some m ∧
      run (fun p => is.lookup p) m ops = some (Spec.afterAll (fun p => is.lookup p) ops, m') ∧
      Spec.Exact (Spec.afterAll (fun p => is.lookup p) ops) m' := by
  obtain ⟨m, h1, h2⟩ := build_inv hg
  obtain ⟨m', h3, h4⟩ := run_inv h2 ops hl
  exact ⟨m, m', h1, h3, exact_of_inv h4⟩

/-- After `ReplaceAllUsesWith(before, after)` nothing in the module refers to `before`, and
what referred to it refers to `after` at the same place. -/
theorem replaceAll_removes (w : World) (b a : Id) (hab : b ≠ a) (hb : b ≠ 0) (ha : a ≠ 0)
    (u : Ptr) (k : Nat) :
    ¬ Spec.UsesAt (Spec.after w (.replace b a fun _ => true)) u k b ∧
    (Spec.UsesAt w u k b → Spec.UsesAt (Spec.after w (.replace b a fun _ => true)) u k a) := by
  simp only [usesAt_iff, Spec.after, rename_eq]
  constructor
  · rintro ⟨inst', h1, h2⟩
    obtain ⟨inst, hi, rfl⟩ := Option.map_eq_some_iff.mp h1
    simp only [ne_eq, hab, not_false_eq_true, and_self, if_true] at h2
    obtain ⟨kd, h3, h4⟩ := (useIndices_mem _ _ _).mp h2
    have hm := List.mem_iff_getElem?.mpr ⟨k, h3⟩
    unfold Inst.operands renameInst at hm
    dsimp only at hm
    rw [List.mem_append, List.mem_append] at hm
    rcases hm with (hm | hm) | hm
    · by_cases hx : inst.type = b
      · simp only [hx, if_true, ne_eq, ha, not_false_eq_true, List.mem_singleton,
          Prod.mk.injEq] at hm
        exact hab hm.2
      · simp only [hx, if_false] at hm
        split at hm
        · simp only [List.mem_singleton, Prod.mk.injEq] at hm
          exact hx hm.2.symm
        · cases hm
    · split at hm
      · simp only [List.mem_singleton, Prod.mk.injEq] at hm
        rw [hm.1] at h4; cases h4
      · cases hm
    · obtain ⟨p, hp, he⟩ := List.mem_map.mp hm
      split at he
      · cases he; exact hab rfl
      · rename_i hx; subst he; exact hx ⟨h4, rfl⟩
  · rintro ⟨inst, h1, h2⟩
    refine ⟨_, by rw [h1]; rfl, ?_⟩
    simp only [ne_eq, hab, not_false_eq_true, and_self, if_true]
    rw [← setAt_rename hb]
    obtain ⟨kd, h3, h4⟩ := (useIndices_mem _ _ _).mp h2
    rw [useIndices_mem]
    refine ⟨kd, ?_, h4⟩
    by_cases hlt : k < hdr inst
    · rcases operands_low inst k hlt with ⟨h5, h6, h7⟩ | h5
      · subst h6
        rw [h3] at h7
        injection h7 with h7
        injection h7 with h8 h9
        have h10 : (setAt (fun k => decide (k ∈ useIndices b inst)) a inst).type = a := by
          simp only [setAt]
          rw [if_pos ⟨h5, by simpa using h2⟩]
        unfold Inst.operands
        rw [h10, if_pos ha, h8]
        rfl
      · rw [h3] at h5; injection h5 with h5; injection h5 with h8 h9
        rw [h8] at h4; cases h4
    · rw [operands_hdr _ _ (by rw [hdr_setAt ha]; omega), hdr_setAt ha]
      rw [operands_hdr _ _ (by omega)] at h3
      simp only [setAt, List.getElem?_mapIdx, h3, Option.map_some]
      rw [show hdr inst + (k - hdr inst) = k by omega]
      simp [h2]

/-! ## the preconditions are needed -/

/-- Analysing a new definition of an id that already has users makes the manager forget
those users: instruction 2 still refers to id 5. -/
theorem redefinition_loses_users :
    ∃ m m', build [(1, ⟨0, 5, []⟩), (2, ⟨0, 0, [(.id, 5)]⟩)] = some m ∧
      m.forEachUser 5 = some [2] ∧
      analyzeDefUse (worldOf [(1, ⟨0, 5, []⟩), (2, ⟨0, 0, [(.id, 5)]⟩)]) m 3 ⟨0, 5, []⟩ = some m' ∧
      m'.getDef 5 = some 3 ∧ m'.forEachUser 5 = some [] := by
  refine ⟨_, _, rfl, ?_, rfl, ?_, ?_⟩ <;> rfl

/-- Clearing an instruction whose definition was analysed but whose uses were not does
nothing: it is still reported as the definition. -/
theorem clear_after_def_only :
    (clearInst (analyzeDef (fun _ => none) {} 1 ⟨0, 5, []⟩) 1 ⟨0, 5, []⟩).getDef 5 = some 1 := by
  rfl

/-- A reference to an id that is defined nowhere fails an assertion. -/
theorem dangling_use_asserts : build [(2, ⟨0, 0, [(.id, 5)]⟩)] = none := by rfl

/-! ## the hypotheses are satisfiable -/

/-- `%1 = OpTypeInt`, `%2 = OpConstant %1`, `%3 = OpIAdd %1 %2 %2`. -/
def exModule : List (Ptr × Inst) :=
  [(10, ⟨0, 1, [(.lit, 32), (.lit, 0)]⟩), (11, ⟨1, 2, [(.lit, 7)]⟩),
   (12, ⟨1, 3, [(.id, 2), (.id, 2)]⟩)]

example : Spec.GoodModule exModule := by
  refine ⟨by decide, ?_, ?_⟩
  · intro a b x y ha hb he h0
    have hla := (List.getElem?_eq_some_iff.mp ha).1
    have hlb := (List.getElem?_eq_some_iff.mp hb).1
    simp only [exModule, List.length_cons, List.length_nil] at hla hlb
    match a, b, hla, hlb with
    | 0, 0, _, _ => rfl
    | 1, 1, _, _ => rfl
    | 2, 2, _, _ => rfl
    | 0, 1, _, _ => cases ha; cases hb; exact absurd he (by decide)
    | 0, 2, _, _ => cases ha; cases hb; exact absurd he (by decide)
    | 1, 0, _, _ => cases ha; cases hb; exact absurd he (by decide)
    | 1, 2, _, _ => cases ha; cases hb; exact absurd he (by decide)
    | 2, 0, _, _ => cases ha; cases hb; exact absurd he (by decide)
    | 2, 1, _, _ => cases ha; cases hb; exact absurd he (by decide)
  · intro u id hu
    rw [uses_iff] at hu
    obtain ⟨inst, h1, h2⟩ := hu
    have hm := (lookup_iff (is := exModule) (by decide)).mp h1
    have d1 : Spec.Defined (fun p => exModule.lookup p) 1 := ⟨10, by decide, _, rfl, rfl⟩
    have d2 : Spec.Defined (fun p => exModule.lookup p) 2 := ⟨11, by decide, _, rfl, rfl⟩
    simp only [exModule, List.mem_cons, List.not_mem_nil, or_false, Prod.mk.injEq] at hm
    rcases hm with ⟨_, rfl⟩ | ⟨_, rfl⟩ | ⟨_, rfl⟩
    · simp [useIds, Inst.operands, isUseType] at h2
    · simp [useIds, Inst.operands, isUseType] at h2
      subst h2; exact d1
    · simp [useIds, Inst.operands, isUseType] at h2
      rcases h2 with h2 | h2 <;> subst h2
      · exact d1
      · exact d2

/-- Replacing `%2` by `%3` in that module, then killing `%2`, is a legal history. -/
example : Spec.LegalAll (fun p => exModule.lookup p)
    [.replace 2 3 (fun _ => true), .kill 11] := by
  refine ⟨Or.inr ⟨⟨11, by decide, _, rfl, rfl⟩, ⟨12, by decide, _, rfl, rfl⟩, ?_⟩, ?_, trivial⟩
  · intro u _ h id hu
    rw [uses_iff] at hu
    obtain ⟨inst, h1, h2⟩ := hu
    have hm := (lookup_iff (is := exModule) (by decide)).mp h1
    have d1 : Spec.Defined (fun p => exModule.lookup p) 1 := ⟨10, by decide, _, rfl, rfl⟩
    have d2 : Spec.Defined (fun p => exModule.lookup p) 2 := ⟨11, by decide, _, rfl, rfl⟩
    simp only [exModule, List.mem_cons, List.not_mem_nil, or_false, Prod.mk.injEq] at hm
    rcases hm with ⟨_, rfl⟩ | ⟨_, rfl⟩ | ⟨_, rfl⟩
    · simp [useIds, Inst.operands, isUseType] at h2
    · simp [useIds, Inst.operands, isUseType] at h2
      subst h2; exact d1
    · simp [useIds, Inst.operands, isUseType] at h2
      rcases h2 with h2 | h2 <;> subst h2
      · exact d1
      · exact d2
  · simp [Spec.Legal, Spec.after, exModule, List.lookup]

/-- The manager before and after that replacement. -/
example : ∃ m w m', build exModule = some m ∧ m.forEachUse (fun p => exModule.lookup p) 2 =
      some [(12, 2), (12, 3)] ∧
    replaceAllUses (fun p => exModule.lookup p) m 2 3 (fun _ => true) = some (w, m') ∧
    m'.forEachUser 2 = some [] ∧ m'.forEachUser 3 = some [12] := by
  refine ⟨_, _, _, rfl, ?_, rfl, ?_, ?_⟩ <;> rfl

end Verif.DefUse
