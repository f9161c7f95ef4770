import Verif.Ssa.Final

/-
# Rewriting variables into SSA form keeps every value (C57)

`Valid`, `Trace`, `before` and `after` are in `Spec.lean`.  A trace is any walk through
the control flow graph; values and the meaning of instructions are arbitrary.

The full claim, for every valid function, is false: `Example.lean` has a valid function
whose rewriting computes another value, and one whose rewriting uses an id that nothing
defines.  What is proved asks for the two things that go wrong there: no definition
recorded by a store was overwritten when a phi candidate was removed (the second component
of the result is `false`) and no replacement is a phi that was not made (`Out.Closed`).
-/

set_option linter.unusedVariables false

namespace Verif.Ssa

section
variable {P : Prog} {fresh : Id} {fuel : Nat} {o : Out} {Val : Type}

/-- Whatever path is taken, every remaining instruction computes after the rewriting what
it computed before. -/
theorem ssa_values_kept_partial (hV : Valid P fresh) (hr : rewrite P fuel fresh = some (o, false))
    (hcl : o.Closed fresh) (F : Id → List Val → Val) (G : Id → Val) (M : Var → Val)
    (hU : ∀ v, G (P.undef v) = M v) {t : List Pt} (ht : Trace P t) {b : Block} (hb : b ∈ P.order)
    {r : Id} {ops : List Id} (hi : Inst.other r ops ∈ P.insts b) :
    after F P o G t r = (before F P G M t).1 r := by
  have hf0 : fresh ≠ 0 := by have := (hV.undef_id 0).2; intro e; rw [e] at this; cases this
  obtain ⟨phi, c, E, hC, hO⟩ := rewrite_cert hV hf0 hr hcl
  exact (cert_right hV hC hU hO ht).1 b hb r ops hi

/-- Where an id may be used, the id put in its place has the value it had: in particular
what replaces a load has the value the load read. -/
theorem ssa_uses_kept_partial (hV : Valid P fresh) (hr : rewrite P fuel fresh = some (o, false))
    (hcl : o.Closed fresh) (F : Id → List Val → Val) (G : Id → Val) (M : Var → Val)
    (hU : ∀ v, G (P.undef v) = M v) {q : Pt} {t : List Pt} (ht : Trace P (q :: t)) {x : Id}
    (hx : x < fresh)
    (hav : ∀ s, Trace P (q :: s) →
      (∃ q' ∈ q :: s, DefinedAt P x q') ∨ ∀ q' : Pt, q'.1 ∈ P.order → ¬ DefinedAt P x q') :
    after F P o G (q :: t) (o.use x) = (before F P G M (q :: t)).1 x := by
  have hf0 : fresh ≠ 0 := by have := (hV.undef_id 0).2; intro e; rw [e] at this; cases this
  obtain ⟨phi, c, E, hC, hO⟩ := rewrite_cert hV hf0 hr hcl
  refine (cert_right hV hC hU hO ht).2 q.1 q.2 t x rfl (fun s hs => ?_) hx
  rcases hav s hs with ⟨q', hq', hd⟩ | h
  · exact .inl ⟨q', hq', .inl hd⟩
  · exact .inr fun q' hq' hd => h q' hq' ((gdef_of_lt hC hx).1 hd)

/-- The value a load read is in the id that replaces it. -/
theorem ssa_load_kept_partial (hV : Valid P fresh) (hr : rewrite P fuel fresh = some (o, false))
    (hcl : o.Closed fresh) (F : Id → List Val → Val) (G : Id → Val) (M : Var → Val)
    (hU : ∀ v, G (P.undef v) = M v) {b : Block} {k : Nat} {r : Id} {v : Var} {t : List Pt}
    (ht : Trace P ((b, k + 1) :: t)) (hi : (P.insts b)[k]? = some (.load r v)) :
    after F P o G ((b, k + 1) :: t) (o.use r) = (before F P G M t).2 v := by
  have hb := trace_order hV ht (b, k + 1) (List.mem_cons_self ..)
  have hd : DefinedAt P r (b, k + 1) := ⟨k, _, rfl, hi, rfl⟩
  rw [ssa_uses_kept_partial hV hr hcl F G M hU ht (defined_lt hV (q := (b, k + 1)) hb hd)
    fun s _ => .inl ⟨_, List.mem_cons_self .., hd⟩]
  simp [before, hi, exec]

/-- Every load of a reachable block has a replacement. -/
theorem ssa_loads_gone_partial (hV : Valid P fresh) (hr : rewrite P fuel fresh = some (o, false))
    (hcl : o.Closed fresh) {b : Block} (hb : b ∈ P.order) {k : Nat} {r : Id} {v : Var}
    (hi : (P.insts b)[k]? = some (.load r v)) : o.use r ≠ r := by
  have hf0 : fresh ≠ 0 := by have := (hV.undef_id 0).2; intro e; rw [e] at this; cases this
  obtain ⟨phi, c, E, hC, hO⟩ := rewrite_cert hV hf0 hr hcl
  obtain ⟨x, hx, _⟩ := hC.load b k r v hb hi
  have hch := hO.use r (by simp [phi_none hC (load_lt hV hb hi)])
  intro e
  rw [e] at hch
  have := chain_end hch
  rw [hx] at this; cases this

/-- A new phi has one value for every reachable predecessor, and its id is new. -/
theorem ssa_phi_complete_partial (hV : Valid P fresh) (hr : rewrite P fuel fresh = some (o, false))
    (hcl : o.Closed fresh) {f : Id × Block × List (Block × Id)} (hf : f ∈ o.phis) :
    fresh ≤ f.1 ∧ f.2.1 ≠ P.entry ∧
      ∀ p ∈ P.preds f.2.1, p ∈ P.order → ∃ f' ∈ o.phis, f'.1 = f.1 ∧ (f'.2.2.lookup p).isSome := by
  have hf0 : fresh ≠ 0 := by have := (hV.undef_id 0).2; intro e; rw [e] at this; cases this
  obtain ⟨phi, c, E, hC, hO⟩ := rewrite_cert hV hf0 hr hcl
  obtain ⟨v, a, hp⟩ := hO.only f hf
  refine ⟨hC.phi_new _ _ hp, hC.phi_entry _ _ hp, fun p hpp ho => ?_⟩
  obtain ⟨f', y, h1, h2, _⟩ := hO.phis _ _ v a p hp hpp ho
  have := List.find?_some h1
  simp at this
  exact ⟨f', List.mem_of_find?_eq_some h1, this.1, by rw [h2]; rfl⟩

end

end Verif.Ssa
