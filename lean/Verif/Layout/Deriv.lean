import Verif.Layout.Grammar

set_option linter.unusedSimpArgs false
set_option linter.unusedVariables false

namespace Verif.Layout
open Spec

/-- `R` after one instruction. -/
def Next (c : Cfg) (op : Op) (l : List Op) : Prop :=
  match astep c op with
  | none => False
  | some c' => R c' l

theorem next_types {op l} : Rtypes (op :: l) ↔ Next .types op l := by
  rw [rtypes_cons, rdecl0_cons, rdef0_cons, rg0_cons]
  have h1 : Rdef0 l → Rtypes l := fun h => rtypes_of_rdecl0 (rdecl0_of_rdef0 h)
  have h2 : Rdef1 l → Rdecl1 l := .inr
  cases op with
  | ext e =>
    obtain ⟨a, b, c, d⟩ := e
    cases a <;> cases b <;> cases c <;> cases d <;>
    simp [Next, astep, R, afterTypes, toGraph, InTypes, IsGap, IsExt, IsNonSemantic, IsGlobalDebug,
      isGlobal, isNonSem, IsPlainNonSemantic] <;> exact h1
  | _ =>
    simp [Next, astep, R, afterTypes, toGraph, InTypes, IsGap, IsExt, IsNonSemantic, IsGlobalDebug,
      IsPlainNonSemantic] <;> first | exact h1 | exact h2

theorem next_decl0 {op l} : Rdecl0 (op :: l) ↔ Next .decl0 op l := by
  rw [rdecl0_cons, rdef0_cons, rg0_cons]
  have h2 : Rdef1 l → Rdecl1 l := .inr
  cases op with
  | ext e =>
    obtain ⟨a, b, c, d⟩ := e
    cases a <;> cases b <;> cases c <;> cases d <;>
    simp [Next, astep, R, afterTypes, toGraph, InTypes, IsGap, IsExt, IsNonSemantic, IsGlobalDebug,
      isGlobal, isNonSem, IsPlainNonSemantic]
  | _ =>
    simp [Next, astep, R, afterTypes, toGraph, InTypes, IsGap, IsExt, IsNonSemantic, IsGlobalDebug,
      IsPlainNonSemantic] <;> exact h2

theorem next_def0 {op l} : Rdef0 (op :: l) ↔ Next .def0 op l := by
  rw [rdef0_cons, rg0_cons]
  cases op with
  | ext e =>
    obtain ⟨a, b, c, d⟩ := e
    cases a <;> cases b <;> cases c <;> cases d <;>
    simp [Next, astep, R, def0Step, toGraph, IsGap, IsExt, IsNonSemantic, isNonSem]
  | _ =>
    simp [Next, astep, R, def0Step, toGraph, IsGap, IsExt, IsNonSemantic, IsPlainNonSemantic]

theorem next_decl1 {op l} : Rdecl1 (op :: l) ↔ Next .decl1 op l := by
  rw [rdecl1_cons, rdef1_cons]
  have h2 : Rdef1 l → Rdecl1 l := .inr
  cases op with
  | ext e =>
    obtain ⟨a, b, c, d⟩ := e
    cases a <;> cases b <;> cases c <;> cases d <;>
    simp [Next, astep, R, IsHeader, Separator, IsLocalDebug, isLocal]
  | _ =>
    simp [Next, astep, R, IsHeader, Separator, IsLocalDebug, toDoomed] <;> exact h2

theorem next_def1 {op l} : Rdef1 (op :: l) ↔ Next .def1 op l := by
  rw [rdef1_cons]
  cases op with
  | ext e =>
    obtain ⟨a, b, c, d⟩ := e
    cases a <;> cases b <;> cases c <;> cases d <;>
    simp [Next, astep, R, IsHeader, Separator, IsLocalDebug, isLocal]
  | _ => simp [Next, astep, R, IsHeader, Separator, IsLocalDebug, toDoomed]

theorem next_def2 {op l} : Rdef2 (op :: l) ↔ Next .def2 op l := by
  rw [rdef2_cons]
  cases op with
  | ext e =>
    obtain ⟨a, b, c, d⟩ := e
    cases a <;> cases b <;> cases c <;> cases d <;>
    simp [Next, astep, R, InBlock, IsExt, IsGlobalDebug, isGlobal]
  | _ => simp [Next, astep, R, InBlock, IsExt, IsGlobalDebug, toDoomed]

theorem next_def3 {op l} : Rdef3 (op :: l) ↔ Next .def3 op l := by
  rw [rdef3_cons]
  cases op with
  | ext e =>
    obtain ⟨a, b, c, d⟩ := e
    cases a <;> cases b <;> cases c <;> cases d <;>
    simp [Next, astep, R, Separator, IsLocalDebug, isLocal]
  | _ => simp [Next, astep, R, Separator, IsLocalDebug, toDoomed]

theorem next_graph0 {op l} : Rg0 (op :: l) ↔ Next (.graph 0) op l := by
  rw [rg0_cons]
  cases op with
  | ext e =>
    obtain ⟨a, b, c, d⟩ := e
    cases a <;> cases b <;> cases c <;> cases d <;>
    simp [Next, astep, R, graphStep, IsPlainNonSemantic, isPlainNonSem]
  | _ => simp [Next, astep, R, graphStep, IsPlainNonSemantic]

theorem next_graph1 {op l} : Rg1 (op :: l) ↔ Next (.graph 1) op l := by
  rw [rg1_cons, rg3_cons]
  have h2 : Rg3 l → Rg1 l := rg1_of_rg3
  cases op with
  | ext e =>
    obtain ⟨a, b, c, d⟩ := e
    cases a <;> cases b <;> cases c <;> cases d <;>
    simp [Next, astep, R, graphStep, IsPlainNonSemantic, isPlainNonSem, IsIn, IsGraphBody, IsExt] <;>
    exact h2
  | _ => simp [Next, astep, R, graphStep, IsPlainNonSemantic, IsIn, IsGraphBody, IsExt] 

theorem next_graph2 {op l} : Rg1 (op :: l) ↔ Next (.graph 2) op l := by
  rw [rg1_cons, rg3_cons]
  have h2 : Rg3 l → Rg1 l := rg1_of_rg3
  cases op with
  | ext e =>
    obtain ⟨a, b, c, d⟩ := e
    cases a <;> cases b <;> cases c <;> cases d <;>
    simp [Next, astep, R, graphStep, IsPlainNonSemantic, isPlainNonSem, IsIn, IsGraphBody, IsExt] <;>
    exact h2
  | _ => simp [Next, astep, R, graphStep, IsPlainNonSemantic, IsIn, IsGraphBody, IsExt] 

theorem next_graph3 {op l} : Rg3 (op :: l) ↔ Next (.graph 3) op l := by
  rw [rg3_cons]
  cases op with
  | ext e =>
    obtain ⟨a, b, c, d⟩ := e
    cases a <;> cases b <;> cases c <;> cases d <;>
    simp [Next, astep, R, graphStep, IsPlainNonSemantic, isPlainNonSem, IsGraphBody, IsExt]
  | _ => simp [Next, astep, R, graphStep, IsPlainNonSemantic, IsGraphBody, IsExt] 

theorem next_graph4 {op l} : Rg4 (op :: l) ↔ Next (.graph 4) op l := by
  rw [rg4_cons]
  cases op with
  | ext e =>
    obtain ⟨a, b, c, d⟩ := e
    cases a <;> cases b <;> cases c <;> cases d <;>
    simp [Next, astep, R, graphStep, IsPlainNonSemantic, isPlainNonSem, IsOut]
  | _ => simp [Next, astep, R, graphStep, IsPlainNonSemantic, IsOut] 

theorem next_doomed {r op l} : ¬ Next (.doomed r) op l := by
  unfold Next
  simp only [astep]
  cases graphStep r op <;> simp [R]

/-! ## The prologue -/

theorem preSection_mm {op : Op} (h : preSection op = some 3) : op = .memoryModel := by
  cases op <;> simp [preSection] at h ⊢

theorem next_types_pre {op l k} (h : preSection op = some k) : ¬ Next .types op l := by
  cases op <;> simp [preSection] at h <;> simp [Next, astep, afterTypes, toGraph]

theorem next_pre_of_types {n op l} (hn : 3 ≤ n) (he : ¬ IsExt op) (h : preSection op = none) :
    Next (.pre n) op l ↔ Next .types op l := by
  have hn' : ¬ n < 3 := by omega
  cases op with
  | ext e => exact absurd ⟨e, rfl⟩ he
  | _ => (try cases h) <;> simp [preSection, Next, astep, afterTypes, toGraph, if_neg hn']

theorem count_pos_section {ps : List Op} {k : Nat} (hk : 3 < k)
    (h : ∀ x ∈ ps, ∃ j, preSection x = some j ∧ k ≤ j) : ps.count .memoryModel = 0 := by
  refine List.count_eq_zero.mpr fun hm => ?_
  obtain ⟨j, hj, hkj⟩ := h _ hm
  simp only [preSection, Option.some.injEq] at hj
  omega

theorem next_pre {n op l} (hn : n ≤ 10) : Rpre n (op :: l) ↔ Next (.pre n) op l := by
  constructor
  · rintro ⟨pro, rest, h1, h2, h3, h4, h5, h6⟩
    cases pro with
    | nil =>
      simp only [List.nil_append] at h1
      subst h1
      have hn3 : 3 ≤ n := by
        by_cases h : 3 ≤ n
        · exact h
        · rw [if_neg h] at h4; cases h4
      have he : ¬ IsExt op := noLeadingExt_cons.mp h6
      have ht := next_types.mp h5
      cases hp : preSection op with
      | some k => exact absurd ht (next_types_pre hp)
      | none => exact (next_pre_of_types hn3 he hp).mpr ht
    | cons a ps =>
      simp only [List.cons_append, List.cons.injEq] at h1
      obtain ⟨rfl, rfl⟩ := h1
      obtain ⟨k, hk, hnk⟩ := h2 _ List.mem_cons_self
      rw [List.pairwise_cons] at h3
      have hge : ∀ x ∈ ps, ∃ j, preSection x = some j ∧ k ≤ j := by
        intro x hx
        obtain ⟨j, hj, -⟩ := h2 x (List.mem_cons_of_mem _ hx)
        have := h3.1 x hx
        rw [hk, hj] at this
        exact ⟨j, hj, this⟩
      by_cases hm : op = .memoryModel
      · subst hm
        simp only [preSection, Option.some.injEq] at hk
        subst hk
        rw [List.count_cons_self] at h4
        by_cases h3n : 3 ≤ n
        · rw [if_pos h3n] at h4; omega
        · rw [if_neg h3n] at h4
          have e1 : ¬ (3 < n) := by omega
          have e2 : n ≠ 3 := by omega
          simp only [Next, astep, preSection, e1, e2, R]
          simp
          exact ⟨ps, rest, rfl, hge, h3.2, by simpa using h4, h5, h6⟩
      · have hc : ps.count .memoryModel = (if 3 ≤ n then 0 else 1) := by
          rw [List.count_cons_of_ne hm] at h4; exact h4
        have hk3 : k ≠ 3 := fun h => hm (preSection_mm (by rw [hk, h]))
        have e0 : ¬ (n < 3 ∧ 3 < k) := by
          rintro ⟨e1, e2⟩
          have := count_pos_section e2 hge
          rw [this, if_neg (by omega)] at hc
          cases hc
        have e1 : ¬ (k < n) := by omega
        have e2 : ¬ (n = 3 ∧ k = 3) := fun h => hk3 h.2
        simp only [Next, astep, hk, if_neg e0, if_neg e1, if_neg e2, R]
        refine ⟨ps, rest, rfl, hge, h3.2, ?_, h5, h6⟩
        rw [hc]
        by_cases h : 3 ≤ n
        · rw [if_pos h, if_pos (by omega)]
        · rw [if_neg h, if_neg (by omega)]
  · intro h
    cases hp : preSection op with
    | some k =>
      simp only [Next, astep, hp] at h
      by_cases e1 : k < n
      · simp [e1] at h
      by_cases e0 : n < 3 ∧ 3 < k
      · simp [e1, e0] at h
      by_cases e2 : n = 3 ∧ k = 3
      · simp only [if_neg e1, if_neg e0, if_pos e2] at h
      simp only [if_neg e1, if_neg e0, if_neg e2, R] at h
      obtain ⟨ps, rest, rfl, h2, h3, h4, h5, h6⟩ := h
      refine ⟨op :: ps, rest, rfl, ?_, ?_, ?_, h5, h6⟩
      · intro x hx
        rcases List.mem_cons.mp hx with rfl | hx
        · exact ⟨k, hp, by omega⟩
        · obtain ⟨j, hj, hkj⟩ := h2 x hx
          exact ⟨j, hj, by omega⟩
      · refine List.pairwise_cons.mpr ⟨fun x hx => ?_, h3⟩
        obtain ⟨j, hj, hkj⟩ := h2 x hx
        rw [hp, hj]; exact hkj
      · by_cases hm : op = .memoryModel
        · subst hm
          simp only [preSection, Option.some.injEq] at hp
          subst hp
          rw [List.count_cons_self, h4, if_pos (by omega), if_neg (by omega)]
        · have hk3 : k ≠ 3 := fun h => hm (preSection_mm (by rw [hp, h]))
          rw [List.count_cons_of_ne hm, h4]
          by_cases h : 3 ≤ n
          · rw [if_pos h, if_pos (by omega)]
          · rw [if_neg h, if_neg (by omega)]
    | none =>
      by_cases hn3 : 3 ≤ n
      · by_cases he : IsExt op
        · obtain ⟨e, rfl⟩ := he
          have hn' : ¬ n < 3 := by omega
          simp [Next, astep, preSection, afterTypes, toGraph, hn'] at h
        · exact ⟨[], op :: l, rfl, by simp, by simp, by rw [if_pos hn3]; rfl,
            next_types.mpr ((next_pre_of_types hn3 he hp).mp h), noLeadingExt_cons.mpr he⟩
      · have hn' : n < 3 := by omega
        simp [Next, astep, hp, hn'] at h

theorem next_iff {c : Cfg} (hc : c ∈ cfgs) {op l} : R c (op :: l) ↔ Next c op l := by
  cases c with
  | pre n =>
    refine next_pre ?_
    simp [cfgs] at hc; omega
  | types => exact next_types
  | decl0 => exact next_decl0
  | decl1 => exact next_decl1
  | def0 => exact next_def0
  | def1 => exact next_def1
  | def2 => exact next_def2
  | def3 => exact next_def3
  | graph r =>
    have : r < 5 := by simp [cfgs] at hc; omega
    match r, this with
    | 0, _ => exact next_graph0
    | 1, _ => exact next_graph1
    | 2, _ => exact next_graph2
    | 3, _ => exact next_graph3
    | 4, _ => exact next_graph4
  | doomed r => exact iff_of_false (fun h => h) next_doomed

theorem final_iff {c : Cfg} (hc : c ∈ cfgs) : R c [] ↔ final c = true := by
  cases c with
  | pre n => simp only [R, final, decide_eq_true_eq]; exact rpre_nil
  | types => exact iff_of_true rtypes_nil rfl
  | decl0 => exact iff_of_true rdecl0_nil rfl
  | decl1 => exact iff_of_false rdecl1_nil (by decide)
  | def0 => exact iff_of_true rdef0_nil rfl
  | def1 => exact iff_of_false rdef1_nil (by decide)
  | def2 => exact iff_of_false rdef2_nil (by decide)
  | def3 => exact iff_of_false rdef3_nil (by decide)
  | graph r =>
    have : r < 5 := by simp [cfgs] at hc; omega
    match r, this with
    | 0, _ => exact iff_of_true rg0_nil rfl
    | 1, _ => exact iff_of_false rg1_nil (by decide)
    | 2, _ => exact iff_of_false rg1_nil (by decide)
    | 3, _ => exact iff_of_false rg3_nil (by decide)
    | 4, _ => exact iff_of_false rg4_nil (by decide)
  | doomed r => exact iff_of_false (fun h => h) (by simp [final])

theorem cfgs_nonempty_states : (cfgs.all fun c => !(states c).isEmpty) = true := by decide +kernel

theorem astep_mem {c : Cfg} (hc : c ∈ cfgs) {op c'} (h : astep c op = some c') : c' ∈ cfgs := by
  have hs := List.all_eq_true.mp cfgs_nonempty_states c hc
  cases hl : states c with
  | nil => rw [hl] at hs; cases hs
  | cons s rest =>
    rcases simulates hc (s := s) (by rw [hl]; exact List.mem_cons_self) op with ⟨h1, -⟩ | ⟨c2, s', h1, h2, -⟩
    · rw [h1] at h; cases h
    · rw [h1] at h; cases h; exact h2

theorem arun_iff : ∀ (l : List Op) {c : Cfg} (_ : c ∈ cfgs), arun c l = true ↔ R c l
  | [], c, hc => (final_iff hc).symm
  | op :: l, c, hc => by
    rw [next_iff hc]
    simp only [arun, Next]
    cases h : astep c op with
    | none => simp
    | some c' => exact arun_iff l (astep_mem hc h)

end Verif.Layout
