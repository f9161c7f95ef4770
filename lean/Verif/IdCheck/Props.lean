import Verif.IdCheck.Lemmas

/-!
# Properties of id validation
-/
namespace Verif.IdCheck
open Spec

/-- C40: the id checks accept a module exactly when every id operand is either defined by an
earlier instruction of a suitable kind, or stands where a forward reference is permitted and
is defined by this or a later instruction; types may only look forward to announced
pointers; and result types are types defined earlier. -/
theorem validate_iff (m : List Inst) : validate m = true ↔ IdsOk m := by
  unfold validate
  rw [loop_spec m inv_init]
  simp only [List.nil_append]
  constructor
  · rintro ⟨h1, h2⟩ pre user post hm
    obtain ⟨h3, h4⟩ := h1 pre user post hm
    refine ⟨fun k o hk => ?_, h4⟩
    have hl := h3 k o hk
    cases o with
    | id w =>
      rcases hl with hl | ⟨ha, hb, hc⟩
      · exact .inl hl
      · refine .inr ⟨ha, hb, hc, Classical.byContradiction fun hd => ?_⟩
        exact h2 w ⟨pre, user, post, hm, ⟨List.mem_of_getElem? hk, ha⟩, hd⟩
    | typeId w => exact hl
    | extNumber => exact hl
    | resultId => trivial
    | other => trivial
  · intro h
    refine ⟨fun pre user post hm => ?_, ?_⟩
    · obtain ⟨h3, h4⟩ := h pre user post hm
      refine ⟨fun k o hk => ?_, h4⟩
      have hl := h3 k o hk
      cases o with
      | id w =>
        rcases hl with hl | ⟨ha, hb, hc, -⟩
        · exact .inl hl
        · exact .inr ⟨ha, hb, hc⟩
      | typeId w => exact hl
      | extNumber => exact hl
      | resultId => trivial
      | other => trivial
    · rintro w ⟨pre, user, post, hm, ⟨hmem, hn⟩, hd⟩
      obtain ⟨k, hk⟩ := List.getElem?_of_mem hmem
      rcases (h pre user post hm).1 k _ hk with ⟨d, hd', -⟩ | ⟨-, -, -, hd'⟩
      · exact hn (definedIn_of_firstDef hd')
      · exact hd hd'

/-- C40, as a user reads it: in an accepted module every id used anywhere is defined
somewhere (once, given that the parser rejects repeated result ids), and a use at or before
the definition stands at an operand position that permits forward references. -/
theorem accepted_uses_defined (m : List Inst) (h : validate m = true)
    (huniq : (m.filter (·.id ≠ 0)).Pairwise (fun a b => a.id ≠ b.id))
    (pre : List Inst) (user : Inst) (post : List Inst) (hm : m = pre ++ user :: post)
    (k w : Nat) (hk : user.operands[k]? = some (.id w) ∨ user.operands[k]? = some (.typeId w)) :
    (∃ d, d ∈ m ∧ Defines d w ∧ ∀ d' ∈ m, Defines d' w → d' = d) ∧
    (¬ DefinedIn pre w → Permits user k ∧ user.operands[k]? = some (.id w)) := by
  have hok := ((validate_iff m).mp h pre user post hm).1
  have hdef : DefinedIn m w ∧ (¬ DefinedIn pre w → Permits user k ∧ user.operands[k]? = some (.id w)) := by
    rcases hk with hk | hk
    · rcases hok k _ hk with ⟨d, hd, -⟩ | ⟨hn, hp, -, hd⟩
      · have := definedIn_of_firstDef hd
        exact ⟨by rw [hm]; exact definedIn_append.mpr (.inl this), fun hn => absurd this hn⟩
      · exact ⟨by rw [hm]; exact definedIn_append.mpr (.inr hd), fun _ => ⟨hp, hk⟩⟩
    · obtain ⟨d, hd, -⟩ := hok k _ hk
      have := definedIn_of_firstDef hd
      exact ⟨by rw [hm]; exact definedIn_append.mpr (.inl this), fun hn => absurd this hn⟩
  refine ⟨?_, hdef.2⟩
  obtain ⟨d, hd, hw⟩ := hdef.1
  refine ⟨d, hd, hw, fun d' hd' hw' => ?_⟩
  refine Classical.byContradiction fun hne => ?_
  have hf : ∀ x ∈ m, Defines x w → x ∈ m.filter (·.id ≠ 0) := by
    intro x hx hxw
    refine List.mem_filter.mpr ⟨hx, ?_⟩
    simp only [decide_eq_true_eq]
    rw [hxw.1]; exact hxw.2
  have key : ∀ {l : List Inst}, l.Pairwise (fun a b => a.id ≠ b.id) → ∀ {a b}, a ∈ l → b ∈ l →
      a ≠ b → a.id ≠ b.id := by
    intro l hl
    induction hl with
    | nil => intro a b ha; cases ha
    | cons h _ ih =>
      intro a b ha hb hab
      rcases List.mem_cons.mp ha with ha1 | ha1 <;> rcases List.mem_cons.mp hb with hb1 | hb1
      · exact absurd (ha1.trans hb1.symm) hab
      · rw [ha1]; exact h b hb1
      · rw [hb1]; exact fun he => h a ha1 he.symm
      · exact ih ha1 hb1 hab
  exact key huniq (hf d' hd' hw') (hf d hd hw) hne (by rw [hw'.1, hw.1])

/-- A recursive structure through an announced pointer, a function type, a function with a
loop phi that mentions itself, and a decoration ahead of its target. -/
def sample : List Inst :=
  let base : Inst := ⟨.other, 0, 0, [], false, true, false, .none⟩
  [{ base with op := .anyOperand, operands := [.id 4, .other] },
   { base with op := .typeForwardPointer, operands := [.id 2, .other] },
   { base with op := .typ, id := 1, operands := [.resultId, .id 2] },
   { base with op := .typ, id := 2, operands := [.resultId, .other, .id 1] },
   { base with op := .typ, id := 3, operands := [.resultId] },
   { base with op := .phi, id := 4, typeId := 3, operands := [.typeId 3, .resultId, .id 4, .id 5] },
   { base with id := 5, operands := [.resultId] }]

example : validate sample = true ∧ validate sample.dropLast = false ∧
    (sample.filter (·.id ≠ 0)).Pairwise (fun a b => a.id ≠ b.id) := by decide

end Verif.IdCheck
