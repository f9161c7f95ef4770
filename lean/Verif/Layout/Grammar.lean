import Verif.Layout.Automaton

set_option linter.unusedSimpArgs false
set_option linter.unusedVariables false

/-!
# The language of each configuration
-/
namespace Verif.Layout
open Spec

def Until (P : Op → Prop) (Q : List Op → Prop) (l : List Op) : Prop :=
  ∃ ps rest, l = ps ++ rest ∧ (∀ x ∈ ps, P x) ∧ Q rest

def Flat (P : List Op → Prop) (Q : List Op → Prop) (l : List Op) : Prop :=
  ∃ ps rest, l = List.flatten ps ++ rest ∧ (∀ x ∈ ps, P x) ∧ Q rest

def Then (x : Op) (Q : List Op → Prop) (l : List Op) : Prop := ∃ rest, l = x :: rest ∧ Q rest

def Item (P : List Op → Prop) (Q : List Op → Prop) (op : Op) (l : List Op) : Prop :=
  ∃ p rest, P (op :: p) ∧ l = p ++ rest ∧ Flat P Q rest

theorem then_nil {x Q} : Then x Q [] ↔ False := by
  constructor
  · rintro ⟨r, h, -⟩; cases h
  · exact False.elim

theorem then_cons {x Q op l} : Then x Q (op :: l) ↔ op = x ∧ Q l := by
  constructor
  · rintro ⟨r, h, hq⟩; cases h; exact ⟨rfl, hq⟩
  · rintro ⟨rfl, hq⟩; exact ⟨l, rfl, hq⟩

theorem until_nil {P Q} : Until P Q [] ↔ Q [] := by
  constructor
  · rintro ⟨ps, r, h, -, hq⟩
    have := List.append_eq_nil_iff.mp h.symm
    rwa [this.2] at hq
  · intro h; exact ⟨[], [], rfl, by simp, h⟩

theorem until_of {P} {Q : List Op → Prop} {l} (h : Q l) : Until P Q l := ⟨[], l, rfl, by simp, h⟩

theorem until_cons {P Q op l} : Until P Q (op :: l) ↔ Q (op :: l) ∨ (P op ∧ Until P Q l) := by
  constructor
  · rintro ⟨ps, r, h, hp, hq⟩
    cases ps with
    | nil => simp only [List.nil_append] at h; exact .inl (h ▸ hq)
    | cons a ps =>
      simp only [List.cons_append, List.cons.injEq] at h
      obtain ⟨rfl, rfl⟩ := h
      exact .inr ⟨hp _ List.mem_cons_self, ps, r, rfl, fun x hx => hp x (List.mem_cons_of_mem _ hx), hq⟩
  · rintro (h | ⟨h1, ps, r, h2, h3, h4⟩)
    · exact until_of h
    · refine ⟨op :: ps, r, by rw [h2]; rfl, ?_, h4⟩
      intro x hx
      rcases List.mem_cons.mp hx with rfl | hx
      · exact h1
      · exact h3 x hx

theorem flat_of {P} {Q : List Op → Prop} {l} (h : Q l) : Flat P Q l := ⟨[], l, rfl, by simp, h⟩

theorem flat_nil {P Q} (hP : ¬ P []) : Flat P Q [] ↔ Q [] := by
  constructor
  · rintro ⟨ps, r, h, -, hq⟩
    have := List.append_eq_nil_iff.mp h.symm
    rwa [this.2] at hq
  · exact flat_of

theorem flat_cons {P Q op l} (hP : ¬ P []) : Flat P Q (op :: l) ↔ Q (op :: l) ∨ Item P Q op l := by
  constructor
  · rintro ⟨ps, r, h, hp, hq⟩
    cases ps with
    | nil => simp only [List.flatten_nil, List.nil_append] at h; exact .inl (h ▸ hq)
    | cons a ps =>
      have ha := hp a List.mem_cons_self
      cases a with
      | nil => exact absurd ha hP
      | cons b p =>
        simp only [List.flatten_cons, List.cons_append, List.append_assoc, List.cons.injEq] at h
        obtain ⟨rfl, rfl⟩ := h
        exact .inr ⟨p, _, ha, rfl, ps, r, rfl, fun x hx => hp x (List.mem_cons_of_mem _ hx), hq⟩
  · rintro (h | ⟨p, rest, h1, h2, ps, r, h3, h4, h5⟩)
    · exact flat_of h
    · refine ⟨(op :: p) :: ps, r, by rw [h2, h3]; simp, ?_, h5⟩
      intro x hx
      rcases List.mem_cons.mp hx with rfl | hx
      · exact h1
      · exact h4 x hx

theorem not_declaration_nil : ¬ Declaration [] := by rintro ⟨ps, h, -⟩; cases h
theorem not_block_nil : ¬ Block [] := by rintro ⟨_, _, h, -⟩; cases h
theorem not_def_nil : ¬ (Definition [] ∨ Gap []) := by
  rintro (⟨_, _, h, -⟩ | ⟨x, h, -⟩) <;> cases h
theorem not_graph_nil : ¬ GraphItem [] := by
  rintro (⟨_, _, _, h, -⟩ | h | ⟨x, h, -⟩) <;> cases h

theorem item_decl {Q op l} : Item Declaration Q op l ↔
    op = .function ∧ Until (· = .functionParameter) (Then .functionEnd (Flat Declaration Q)) l := by
  constructor
  · rintro ⟨p, rest, ⟨ps, h1, h2⟩, h3, h4⟩
    simp only [List.cons_append, List.cons.injEq] at h1
    obtain ⟨rfl, rfl⟩ := h1
    exact ⟨rfl, ps, .functionEnd :: rest, by rw [h3]; simp, h2, rest, rfl, h4⟩
  · rintro ⟨rfl, ps, r, h1, h2, rest, rfl, h4⟩
    exact ⟨ps ++ [.functionEnd], rest, ⟨ps, rfl, h2⟩, by rw [h1]; simp, h4⟩

theorem item_block {Q op l} : Item Block Q op l ↔
    op = .label ∧ Until InBlock (Then .terminator (Until Separator (Flat Block Q))) l := by
  constructor
  · rintro ⟨p, rest, ⟨body, sep, h1, h2, h2'⟩, h3, h4⟩
    simp only [List.cons_append, List.cons.injEq] at h1
    obtain ⟨rfl, rfl⟩ := h1
    exact ⟨rfl, body, .terminator :: (sep ++ rest), by rw [h3]; simp, h2, _, rfl, sep, rest, rfl, h2', h4⟩
  · rintro ⟨rfl, body, r, h1, h2, r', rfl, sep, rest, rfl, h3, h4⟩
    exact ⟨body ++ .terminator :: sep, rest, ⟨body, sep, rfl, h2, h3⟩, by rw [h1]; simp, h4⟩

def IsGap (x : Op) : Prop := x = .line ∨ IsNonSemantic x
def IsHeader (x : Op) : Prop := x = .functionParameter ∨ Separator x
def DefOrGap (l : List Op) : Prop := Definition l ∨ Gap l
def IsIn (x : Op) : Prop := x = .graphInput ∨ IsPlainNonSemantic x
def IsOut (x : Op) : Prop := x = .graphSetOutput ∨ IsPlainNonSemantic x
def IsGraphBody (x : Op) : Prop := x = .compositeExtract ∨ IsExt x

def Rg0 : List Op → Prop := Flat GraphItem (· = [])
def Rg4 : List Op → Prop := Until IsOut (Then .graphEnd Rg0)
def Rg3 : List Op → Prop := Until IsGraphBody (Then .graphSetOutput Rg4)
def Rg1 : List Op → Prop := Until IsIn Rg3
def Rdef0 : List Op → Prop := Flat DefOrGap (fun l => NoLeadingExt l ∧ Rg0 l)
def Rdef3 : List Op → Prop := Until Separator (Flat Block (Then .functionEnd Rdef0))
def Rdef2 : List Op → Prop := Until InBlock (Then .terminator Rdef3)
def Rdef1 : List Op → Prop := Until IsHeader (Then .label Rdef2)
def Rdecl0 : List Op → Prop := Flat Declaration Rdef0
def Rdecl1 (l : List Op) : Prop :=
  Until (· = .functionParameter) (Then .functionEnd Rdecl0) l ∨ Rdef1 l
def Rtypes : List Op → Prop := Until InTypes Rdecl0

theorem item_def {op l} : Item DefOrGap (fun l => NoLeadingExt l ∧ Rg0 l) op l ↔
    (op = .function ∧ Rdef1 l) ∨ (IsGap op ∧ Rdef0 l) := by
  constructor
  · rintro ⟨p, rest, ⟨header, blocks, h1, h2, hne, h2'⟩ | ⟨x, h1, h2⟩, h3, h4⟩
    · simp only [List.cons_append, List.cons.injEq] at h1
      obtain ⟨rfl, rfl⟩ := h1
      refine .inl ⟨rfl, header, blocks.flatten ++ .functionEnd :: rest, by rw [h3]; simp, h2, ?_⟩
      have hf : Flat Block (Then .functionEnd Rdef0) (blocks.flatten ++ .functionEnd :: rest) :=
        ⟨blocks, _, rfl, h2', rest, rfl, h4⟩
      cases blocks with
      | nil => exact absurd rfl hne
      | cons b bs =>
        have hb := h2' b List.mem_cons_self
        cases b with
        | nil => exact absurd hb not_block_nil
        | cons c p =>
          simp only [List.flatten_cons, List.cons_append] at hf ⊢
          rcases (flat_cons not_block_nil).mp hf with hx | hx
          · obtain ⟨body, sep, hb, -, -⟩ := hb
            simp only [List.cons_append, List.cons.injEq] at hb
            rw [hb.1] at hx
            obtain ⟨r, hr, -⟩ := hx
            cases hr
          · obtain ⟨hl, hb2⟩ := item_block.mp hx
            exact ⟨_, by rw [hl], hb2⟩
    · simp only [List.cons.injEq] at h1
      obtain ⟨rfl, rfl⟩ := h1
      exact .inr ⟨h2, by rw [h3]; exact h4⟩
  · rintro (⟨rfl, header, r, h1, h2, r', rfl, h3⟩ | ⟨h1, h2⟩)
    · have h3' : Item Block (Then .functionEnd Rdef0) .label r' := item_block.mpr ⟨rfl, h3⟩
      obtain ⟨p, rest, hb, rfl, bs, r'', rfl, hbs, rest', rfl, h4⟩ := h3'
      refine ⟨header ++ (((.label :: p) :: bs).flatten ++ [.functionEnd]), rest',
        .inl ⟨header, (.label :: p) :: bs, rfl, h2, by simp, ?_⟩, by rw [h1]; simp, h4⟩
      intro b hb'
      rcases List.mem_cons.mp hb' with rfl | hb'
      · exact hb
      · exact hbs b hb'
    · exact ⟨[], l, .inr ⟨op, rfl, h1⟩, rfl, h2⟩

theorem item_graph {op l} : Item GraphItem (· = []) op l ↔
    (op = .graph ∧ Rg1 l) ∨ (op = .graphEntryPoint ∧ Rg0 l) ∨ (IsPlainNonSemantic op ∧ Rg0 l) := by
  constructor
  · rintro ⟨p, rest, ⟨ins, body, outs, h1, h2, h2', h2''⟩ | h1 | ⟨x, h1, h2⟩, h3, h4⟩
    · simp only [List.cons_append, List.cons.injEq] at h1
      obtain ⟨rfl, rfl⟩ := h1
      refine .inl ⟨rfl, ins, body ++ .graphSetOutput :: (outs ++ .graphEnd :: rest), by rw [h3]; simp,
        h2, body, _, rfl, h2', _, rfl, outs, _, rfl, h2'', _, rfl, h4⟩
    · simp only [List.cons.injEq] at h1
      obtain ⟨rfl, rfl⟩ := h1
      exact .inr (.inl ⟨rfl, by rw [h3]; exact h4⟩)
    · simp only [List.cons.injEq] at h1
      obtain ⟨rfl, rfl⟩ := h1
      exact .inr (.inr ⟨h2, by rw [h3]; exact h4⟩)
  · rintro (⟨rfl, ins, r, h1, h2, body, r', rfl, h2', r'', rfl, outs, r3, rfl, h2'', rest, rfl, h4⟩ |
      ⟨rfl, h2⟩ | ⟨h1, h2⟩)
    · exact ⟨ins ++ (body ++ (.graphSetOutput :: outs ++ [.graphEnd])), rest,
        .inl ⟨ins, body, outs, rfl, h2, h2', h2''⟩, by rw [h1]; simp, h4⟩
    · exact ⟨[], l, .inr (.inl rfl), rfl, h2⟩
    · exact ⟨[], l, .inr (.inr ⟨op, rfl, h1⟩), rfl, h2⟩

/-- The part of a module from prologue section `n` on. -/
def Rpre (n : Nat) (l : List Op) : Prop :=
  ∃ pro rest, l = pro ++ rest ∧ (∀ x ∈ pro, ∃ k, preSection x = some k ∧ n ≤ k) ∧
    pro.Pairwise (fun x y => (preSection x).getD 0 ≤ (preSection y).getD 0) ∧
    pro.count .memoryModel = (if 3 ≤ n then 0 else 1) ∧ Rtypes rest ∧ NoLeadingExt rest

def R : Cfg → List Op → Prop
  | .pre n => Rpre n
  | .types => Rtypes
  | .decl0 => Rdecl0
  | .decl1 => Rdecl1
  | .def0 => Rdef0
  | .def1 => Rdef1
  | .def2 => Rdef2
  | .def3 => Rdef3
  | .graph 0 => Rg0
  | .graph 1 => Rg1
  | .graph 2 => Rg1
  | .graph 3 => Rg3
  | .graph _ => Rg4
  | .doomed _ => fun _ => False

/-! ## The end of the module -/

theorem noLeadingExt_nil : NoLeadingExt [] := by intro x h; cases h

theorem rg0_nil : Rg0 [] := (flat_nil not_graph_nil).mpr rfl
theorem rg4_nil : ¬ Rg4 [] := fun h => then_nil.mp (until_nil.mp h)
theorem rg3_nil : ¬ Rg3 [] := fun h => then_nil.mp (until_nil.mp h)
theorem rg1_nil : ¬ Rg1 [] := fun h => rg3_nil (until_nil.mp h)
theorem rdef0_nil : Rdef0 [] := (flat_nil not_def_nil).mpr ⟨noLeadingExt_nil, rg0_nil⟩
theorem rdef3_nil : ¬ Rdef3 [] := fun h => then_nil.mp ((flat_nil not_block_nil).mp (until_nil.mp h))
theorem rdef2_nil : ¬ Rdef2 [] := fun h => then_nil.mp (until_nil.mp h)
theorem rdef1_nil : ¬ Rdef1 [] := fun h => then_nil.mp (until_nil.mp h)
theorem rdecl0_nil : Rdecl0 [] := flat_of rdef0_nil
theorem rdecl1_nil : ¬ Rdecl1 [] := by
  rintro (h | h)
  · exact then_nil.mp (until_nil.mp h)
  · exact rdef1_nil h
theorem rtypes_nil : Rtypes [] := until_of rdecl0_nil

theorem rpre_nil {n : Nat} : Rpre n [] ↔ 3 ≤ n := by
  constructor
  · rintro ⟨pro, rest, h, -, -, hc, -⟩
    have := List.append_eq_nil_iff.mp h.symm
    rw [this.1] at hc
    by_cases hn : 3 ≤ n
    · exact hn
    · rw [if_neg hn] at hc; cases hc
  · intro h
    exact ⟨[], [], rfl, by simp, by simp, by rw [if_pos h]; rfl, rtypes_nil, noLeadingExt_nil⟩

/-! ## One instruction -/

theorem rg0_cons {op l} : Rg0 (op :: l) ↔
    (op = .graph ∧ Rg1 l) ∨ (op = .graphEntryPoint ∧ Rg0 l) ∨ (IsPlainNonSemantic op ∧ Rg0 l) := by
  unfold Rg0
  rw [flat_cons not_graph_nil, item_graph]
  simp [Rg0]

theorem rg4_cons {op l} : Rg4 (op :: l) ↔ (op = .graphEnd ∧ Rg0 l) ∨ (IsOut op ∧ Rg4 l) := by
  unfold Rg4; rw [until_cons, then_cons]

theorem rg3_cons {op l} : Rg3 (op :: l) ↔ (op = .graphSetOutput ∧ Rg4 l) ∨ (IsGraphBody op ∧ Rg3 l) := by
  unfold Rg3; rw [until_cons, then_cons]

theorem rg1_cons {op l} : Rg1 (op :: l) ↔ Rg3 (op :: l) ∨ (IsIn op ∧ Rg1 l) := until_cons

theorem rg1_of_rg3 {l} (h : Rg3 l) : Rg1 l := until_of h

theorem noLeadingExt_cons {op l} : NoLeadingExt (op :: l) ↔ ¬ IsExt op := by
  constructor
  · intro h; exact h op rfl
  · intro h x hx; cases hx; exact h

theorem rdef0_cons {op l} : Rdef0 (op :: l) ↔
    (¬ IsExt op ∧ Rg0 (op :: l)) ∨ (op = .function ∧ Rdef1 l) ∨ (IsGap op ∧ Rdef0 l) := by
  unfold Rdef0
  rw [flat_cons not_def_nil, item_def, noLeadingExt_cons]
  exact Iff.rfl

theorem rdef3_cons {op l} : Rdef3 (op :: l) ↔
    (op = .functionEnd ∧ Rdef0 l) ∨ (op = .label ∧ Rdef2 l) ∨ (Separator op ∧ Rdef3 l) := by
  unfold Rdef3
  rw [until_cons, flat_cons not_block_nil, then_cons, item_block, or_assoc]
  exact Iff.rfl

theorem rdef2_cons {op l} : Rdef2 (op :: l) ↔ (op = .terminator ∧ Rdef3 l) ∨ (InBlock op ∧ Rdef2 l) := by
  unfold Rdef2; rw [until_cons, then_cons]

theorem rdef1_cons {op l} : Rdef1 (op :: l) ↔ (op = .label ∧ Rdef2 l) ∨ (IsHeader op ∧ Rdef1 l) := by
  unfold Rdef1; rw [until_cons, then_cons]

theorem rdecl0_cons {op l} : Rdecl0 (op :: l) ↔ Rdef0 (op :: l) ∨ (op = .function ∧ Rdecl1 l) := by
  unfold Rdecl0
  rw [flat_cons not_declaration_nil, item_decl]
  constructor
  · rintro (h | ⟨rfl, h⟩)
    · exact .inl h
    · exact .inr ⟨rfl, .inl h⟩
  · rintro (h | ⟨rfl, h | h⟩)
    · exact .inl h
    · exact .inr ⟨rfl, h⟩
    · exact .inl (rdef0_cons.mpr (.inr (.inl ⟨rfl, h⟩)))

theorem rdecl1_cons {op l} : Rdecl1 (op :: l) ↔
    (op = .functionEnd ∧ Rdecl0 l) ∨ (op = .functionParameter ∧ Rdecl1 l) ∨ Rdef1 (op :: l) := by
  unfold Rdecl1
  rw [until_cons, then_cons]
  constructor
  · rintro ((h | ⟨rfl, h⟩) | h)
    · exact .inl h
    · exact .inr (.inl ⟨rfl, .inl h⟩)
    · exact .inr (.inr h)
  · rintro (h | ⟨rfl, h | h⟩ | h)
    · exact .inl (.inl h)
    · exact .inl (.inr ⟨rfl, h⟩)
    · exact .inr (rdef1_cons.mpr (.inr ⟨.inl rfl, h⟩))
    · exact .inr h

theorem rtypes_cons {op l} : Rtypes (op :: l) ↔ Rdecl0 (op :: l) ∨ (InTypes op ∧ Rtypes l) := until_cons

theorem rdecl0_of_rdef0 {l} (h : Rdef0 l) : Rdecl0 l := flat_of h
theorem rtypes_of_rdecl0 {l} (h : Rdecl0 l) : Rtypes l := until_of h

end Verif.Layout
