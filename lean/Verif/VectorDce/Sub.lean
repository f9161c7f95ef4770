import Verif.VectorDce.Comp
import Verif.SsaExec.Lemmas
set_option linter.unusedSimpArgs false
set_option linter.unusedVariables false
set_option linter.unusedSectionVars false
/-!
# What the rewriting puts in the place of an id
-/
namespace Verif.VectorDce
open Verif.SsaExec Verif.VectorDce.Spec
variable {I B X M : Type} [DecidableEq I] {f : Func I B} {S : Base I B X M} {live : I → Option Nat}

/-- `d` is an insertion that the pass bypasses, and `e` is what is used instead. -/
structure Fwd (f : Func I B) (live : I → Option Nat) (d e : I) : Prop where
  inst : d ∈ f.insts
  comb : f.combinator d = true
  why : ∃ idx o c b, f.kind d = .insert idx ∧ f.ops d = [o, c] ∧ live d = some b ∧
    ((idx = [] ∧ e = o) ∨ (∃ p r, idx = p :: r ∧ e = c ∧ b.testBit p = false))

inductive Chain (f : Func I B) (live : I → Option Nat) : I → I → Prop where
  | refl (d) : Chain f live d d
  | cons {d e e'} : Fwd f live d e → Chain f live e e' → Chain f live d e'

theorem Chain.snoc {d e e'} (h : Chain f live d e) (h' : Fwd f live e e') : Chain f live d e' := by
  induction h with
  | refl => exact .cons h' (.refl _)
  | cons h1 _ ih => exact .cons h1 (ih h')

theorem Chain.trans {d e e'} (h : Chain f live d e) (h' : Chain f live e e') : Chain f live d e' := by
  induction h with
  | refl => exact h'
  | cons h1 _ ih => exact .cons h1 (ih h')

theorem Fwd.mem_ops {d e} (h : Fwd f live d e) : e ∈ f.ops d := by
  obtain ⟨idx, o, c, b, -, ho, -, ⟨-, rfl⟩ | ⟨p, r, -, rfl, -⟩⟩ := h.why <;> simp [ho]

/-- The live components are those of what is used instead. -/
theorem Fwd.keeps (hT : Typed f) (hc : Closed f live) {d e} (h : Fwd f live d e) {k} (hL : L f live d k) :
    L f live e k ∧ ∀ (env : I → Option (Nat → X)) a v (m : M), ReadAll env ((f.ops d).map .id) a →
      env e = some v → comp f S d a m k = some (v k) := by
  obtain ⟨idx, o, c, b, hk, ho, hb, hw⟩ := h.why
  obtain ⟨o', c', ho', hsc, hso, hsp⟩ := hT.insert d idx hk
  rw [ho] at ho'
  cases ho'
  have htr : f.shape d ≠ .other := by simpa [Func.tracked] using hc.tracked d b hb
  have hrd : ∀ (env : I → Option (Nat → X)) a, ReadAll env ((f.ops d).map .id) a →
      ∃ v w, a = [v, w] ∧ env o = some v ∧ env c = some w := by
    intro env a ha
    rw [ho] at ha
    cases ha with
    | cons h1 h2 =>
    cases h2 with
    | cons h2 h3 =>
    cases h3
    exact ⟨_, _, rfl, h1, h2⟩
  rcases hw with ⟨rfl, rfl⟩ | ⟨p, r, rfl, rfl, hp⟩
  · constructor
    · rcases L_why hT hc h.inst hL with ⟨h3, -⟩ | ⟨h3, h4, c0, h5, h6⟩
      · exact absurd h3 htr
      · refine covers_L (h6 (e, c0) ?_) h5 (fun hh => h4 (hso rfl ▸ hh))
        simp [Func.mark, hk, Func.markInsert, ho]
    · intro env a v m ha hv
      obtain ⟨x, y, rfl, h1, h2⟩ := hrd env a ha
      rw [hv] at h1
      cases h1
      simp [comp, hk, ho]
  · cases hs : f.shape d with
    | scalar => exact absurd hs (hsp (by simp)).1
    | other => exact absurd hs htr
    | vec n0 =>
      have hkb : b.testBit k := by
        rw [L, hs] at hL
        obtain ⟨b', h1, h2⟩ := hL
        rw [hb] at h1
        cases h1
        exact h2
      have hkp : k ≠ p := by
        rintro rfl
        rw [hp] at hkb
        cases hkb
      constructor
      · obtain ⟨c0, h5, h6⟩ := hc.bits d b k hb hkb
        refine covers_L (b := clear c0 p) (h6 (e, clear c0 p) ?_) (by rw [testBit_clear, h5]; simp [hkp]) (by simp [hsc, hs])
        simp [Func.mark, hk, Func.markInsert, ho]
      · intro env a v m ha hv
        obtain ⟨x, y, rfl, h1, h2⟩ := hrd env a ha
        rw [hv] at h2
        cases h2
        simp [comp, hk, ho, hs, hkp]

structure RInv (f : Func I B) (live : I → Option Nat) (s : Rewrite I) : Prop where
  id : ∀ d e, s.sub d = .id e → Chain f live d e
  undef : ∀ d, s.sub d = .undef → ∃ e, Chain f live d e ∧ live e = some 0
  cut : ∀ i ∈ s.cut, f.combinator i = true ∧ ∃ p idx b o c, f.kind i = .insert (p :: idx) ∧ live i = some b ∧
    clear b p = 0 ∧ f.ops i = [o, c]
  deleted : ∀ i ∈ s.deleted, f.combinator i = true ∧ ∀ d, s.sub d ≠ .id i

theorem RInv.replaceUndef {s : Rewrite I} (h : RInv f live s) {i} (hi : live i = some 0) (hc : f.combinator i = true) :
    RInv f live { s with sub := replaceAll s.sub i .undef, deleted := i :: s.deleted } := by
  refine ⟨?_, ?_, h.cut, ?_⟩
  · intro d e hd
    simp only [replaceAll] at hd
    split at hd
    · cases hd
    · exact h.id d e hd
  · intro d hd
    simp only [replaceAll] at hd
    split at hd
    · next hd' => exact ⟨i, h.id d i hd', hi⟩
    · exact h.undef d hd
  · intro j hj
    simp only [List.mem_cons] at hj
    constructor
    · rcases hj with rfl | hj
      · exact hc
      · exact (h.deleted j hj).1
    · intro d hd
      simp only [replaceAll] at hd
      split at hd
      · cases hd
      · next hne =>
        rcases hj with rfl | hj
        · exact hne hd
        · exact (h.deleted j hj).2 d hd

theorem RInv.replaceFwd {s : Rewrite I} (h : RInv f live s) {i e} (hi : Fwd f live i e) :
    RInv f live { s with sub := replaceAll s.sub i (s.sub e) } := by
  refine ⟨?_, ?_, h.cut, ?_⟩
  · intro d e' hd
    simp only [replaceAll] at hd
    split at hd
    · next hd' => exact ((h.id d i hd').snoc hi).trans (h.id e e' hd)
    · exact h.id d e' hd
  · intro d hd
    simp only [replaceAll] at hd
    split at hd
    · next hd' =>
      obtain ⟨e', h1, h2⟩ := h.undef e hd
      exact ⟨e', ((h.id d i hd').snoc hi).trans h1, h2⟩
    · exact h.undef d hd
  · intro j hj
    refine ⟨(h.deleted j hj).1, fun d hd => ?_⟩
    simp only [replaceAll] at hd
    split at hd
    · exact (h.deleted j hj).2 e hd
    · exact (h.deleted j hj).2 d hd

theorem RInv.one {s : Rewrite I} (h : RInv f live s) {i} (hi : i ∈ f.insts) : RInv f live (f.rewriteOne live s i) := by
  unfold Func.rewriteOne
  split
  · next hc =>
    split
    · exact h
    · next h0 => exact h.replaceUndef h0 hc
    · next b hne hb =>
      split
      · next idx hk =>
        unfold Func.rewriteInsert
        split
        · next o c ho =>
          split
          · exact h.replaceFwd ⟨hi, hc, [], o, c, b, hk, ho, hb, .inl ⟨rfl, rfl⟩⟩
          · next p r =>
            split
            · next hp => exact h.replaceFwd ⟨hi, hc, _, o, c, b, hk, ho, hb, .inr ⟨p, r, rfl, rfl, hp⟩⟩
            · split
              · next h0 =>
                refine ⟨h.id, h.undef, ?_, h.deleted⟩
                intro j hj
                simp only [List.mem_cons] at hj
                rcases hj with rfl | hj
                · exact ⟨hc, p, r, b, o, c, hk, hb, h0, ho⟩
                · exact h.cut j hj
              · exact h
        · exact h
      · exact h
  · exact h

theorem rewrite_inv : RInv f live (f.rewrite live) := by
  have : ∀ (is : List I) (s : Rewrite I), (∀ i ∈ is, i ∈ f.insts) → RInv f live s →
      RInv f live (is.foldl (f.rewriteOne live) s) := by
    intro is
    induction is with
    | nil => intro s _ h; exact h
    | cons i is ih =>
      intro s hi h
      exact ih _ (fun j hj => hi j (by simp [hj])) (h.one (hi i (by simp)))
  refine this f.insts _ (fun _ h => h) ⟨?_, ?_, by simp, by simp⟩
  · intro d e h
    simp at h
    subst h
    exact .refl _
  · intro d h
    simp at h

end Verif.VectorDce
