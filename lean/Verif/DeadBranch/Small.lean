import Verif.DeadBranch.Whole
import Verif.Licm.Small

/-!
# Lemmas: a check of small functions, given their dominators (C74)
-/

set_option linter.unusedSimpArgs false
set_option linter.unusedVariables false

namespace Verif.DeadBranch.Spec
open Verif.IfConv Verif.CodeSink Verif.CodeSink.Spec
open Verif.IfConv.Spec hiding Valid Right

variable {V M : Type} {S : Sem V M} {fn : Fn}

def phiB (fn : Fn) (dom : Lab → Lab → Bool) (start : Id → Bool) (b : Lab) (φ : Phi) : Bool :=
  decide (φ.args.map (·.2)).Nodup && (fn.labels.all fun p => (φ.args.map (·.2)).contains p == (fn.succs p).contains b) &&
  φ.args.all fun x => fn.labels.contains x.2 && availB fn dom start x.1 x.2

def blockB' (fn : Fn) (dom : Lab → Lab → Bool) (start : Id → Bool) (b : Lab) : Bool :=
  ((fn.block b).phis.all (phiB fn dom start b)) && !(fn.succs b).contains fn.entry &&
  ((fn.succs b).all fun s => fn.labels.contains s) &&
  (fn.labels.all fun b' => b' == b || (defs (fn.block b)).all fun d => !(defs (fn.block b')).contains d) &&
  decide (defs (fn.block b)).Nodup && bodyB fn dom start b ((fn.block b).phis.map Phi.id) (fn.block b).body &&
  ((termReads (fn.block b).term).all fun x => availB fn dom start x b) &&
  match (fn.block b).merge with
  | some (.selection m _) => dom b m && m != b && fn.labels.contains m
  | _ => true

theorem valid_phis {dom} (h : ∀ a b, dom a b = true → Dominates fn a b) {start : Id → Bool}
    (hs : ∀ x, start x = true → S.start x ≠ none) (he : ∀ b, b ∉ fn.labels → fn.block b = emptyBlock)
    (hf : fn.entry ∈ fn.labels) (h0 : (fn.block fn.entry).phis = [])
    (hb : fn.labels.all (blockB' fn dom start) = true) : BlockMerge.Spec.Valid S fn := by
  have key : ∀ b, b ∈ fn.labels → blockB' fn dom start b = true := fun b hl => List.all_eq_true.1 hb b hl
  simp only [blockB', Bool.and_eq_true, List.all_eq_true, Bool.or_eq_true, List.contains_iff_mem, phiB,
    List.isEmpty_iff, Bool.not_eq_true', List.contains_eq_mem, decide_eq_false_iff_not, decide_eq_true_eq,
    beq_iff_eq] at key
  have succs : ∀ b, b ∉ fn.labels → fn.succs b = [] := by
    intro b hl; simp [Fn.succs, he b hl, emptyBlock, Term.succs]
  have hdefs : ∀ b, b ∉ fn.labels → defs (fn.block b) = [] := by
    intro b hl; simp [defs, he b hl, emptyBlock]
  have hphi : ∀ b, ∀ φ ∈ (fn.block b).phis, b ∈ fn.labels := by
    intro b φ hφ
    apply Classical.byContradiction
    intro hl
    rw [he b hl] at hφ
    cases hφ
  have hnod : ∀ b, (defs (fn.block b)).Nodup := fun b => by
      by_cases hl : b ∈ fn.labels
      · exact (key b hl).1.1.1.2
      · rw [hdefs b hl]; simp
  have hterm : ∀ b, ∀ x ∈ termReads (fn.block b).term, Avail S fn x b := by
    intro b x hx
    by_cases hl : b ∈ fn.labels
    · exact availB_sound h hs he ((key b hl).1.2 x hx)
    · rw [he b hl] at hx; simp [emptyBlock, termReads] at hx
  exact {
    entry_phis := h0
    first := hf
    entry_preds := fun b hx => by
      by_cases hl : b ∈ fn.labels
      · exact (key b hl).1.1.1.1.1.1.2 hx
      · rw [succs b hl] at hx; simp at hx
    labels := fun b hx => by
      apply Classical.byContradiction
      intro hl; exact hx (succs b hl)
    phi_preds := fun b φ hφ => by
      obtain ⟨⟨h1, h2⟩, h3⟩ := (key b (hphi b φ hφ)).1.1.1.1.1.1.1 φ hφ
      refine ⟨h1, fun p => ?_⟩
      by_cases hp : p ∈ fn.labels
      · have := h2 p hp
        simpa using this
      · rw [succs p hp]
        constructor
        · intro h
          obtain ⟨x, hx, rfl⟩ := List.mem_map.1 h
          exact absurd (h3 x hx).1 hp
        · intro h; cases h
    phi_nodup := fun b => (List.nodup_append.1 (hnod b)).1
    phi_avail := fun b φ hφ a ha => by
      obtain ⟨⟨h1, h2⟩, h3⟩ := (key b (hphi b φ hφ)).1.1.1.1.1.1.1 φ hφ
      exact availB_sound h hs he (h3 a ha).2
    cond_avail := fun b c t f ht => hterm b c (by rw [ht]; simp [termReads])
    listed := fun b hl => by rw [he b hl]; simp [emptyBlock, termReads]
    targets := fun b s hx => by
      by_cases hl : b ∈ fn.labels
      · exact (key b hl).1.1.1.1.1.2 s hx
      · rw [succs b hl] at hx; simp at hx
    once := fun d b b' h1 h2 => by
      have hl : b ∈ fn.labels := by
        apply Classical.byContradiction
        intro hl; rw [hdefs b hl] at h1; simp at h1
      have hl' : b' ∈ fn.labels := by
        apply Classical.byContradiction
        intro hl; rw [hdefs b' hl] at h2; simp at h2
      rcases (key b hl).1.1.1.1.2 b' hl' with e | e
      · exact e.symm
      · exact absurd h2 (e d h1)
    nodup := hnod
    ready := fun b pre i post e x hx => by
      by_cases hl : b ∈ fn.labels
      · rcases bodyB_sound (key b hl).1.1.2 pre i post e x hx with h' | h' | h'
        · exact .inl h'
        · exact .inr (.inl h')
        · exact .inr (.inr (outsideB_sound h hs he h'))
      · rw [he b hl] at e; simp [emptyBlock] at e
    term := hterm
    header := fun b m df hm => by
      by_cases hl : b ∈ fn.labels
      · have := (key b hl).2
        rw [hm] at this
        simp only [Bool.and_eq_true, bne_iff_ne, List.contains_iff_mem, decide_eq_true_eq,
          List.contains_eq_mem] at this
        exact ⟨h b m this.1.1, this.1.2, this.2⟩
      · rw [he b hl] at hm; simp [emptyBlock] at hm }

end Verif.DeadBranch.Spec
