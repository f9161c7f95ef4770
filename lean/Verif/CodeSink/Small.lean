import Verif.CodeSink.Runs
import Verif.IfConv.Props

/-!
# Lemmas: a check of small functions without phis, given their dominators (C71)
-/

set_option linter.unusedSimpArgs false
set_option linter.unusedVariables false

namespace Verif.CodeSink.Spec
open Verif.IfConv Verif.IfConv.Spec

variable {V M : Type} {S : Sem V M} {fn : Fn}

def emptyBlock : Block := ⟨[], [], none, .multi 0 [] []⟩

def outsideB (fn : Fn) (dom : Lab → Lab → Bool) (start : Id → Bool) (x : Id) (b : Lab) : Bool :=
  (start x && fn.labels.all fun b' => !(defs (fn.block b')).contains x) ||
  fn.labels.any fun b' => b' != b && (defs (fn.block b')).contains x && dom b' b

def availB (fn : Fn) (dom : Lab → Lab → Bool) (start : Id → Bool) (x : Id) (b : Lab) : Bool :=
  (start x && fn.labels.all fun b' => !(defs (fn.block b')).contains x) ||
  fn.labels.any fun b' => (defs (fn.block b')).contains x && dom b' b

def bodyB (fn : Fn) (dom : Lab → Lab → Bool) (start : Id → Bool) (b : Lab) : List Id → List Inst → Bool
  | _, [] => true
  | pre, i :: is => ((reads i).all fun x => pre.contains x || outsideB fn dom start x b) &&
      bodyB fn dom start b (instId i :: pre) is

def blockB (fn : Fn) (dom : Lab → Lab → Bool) (start : Id → Bool) (b : Lab) : Bool :=
  (fn.block b).phis.isEmpty && !(fn.succs b).contains fn.entry && ((fn.succs b).all fun s => fn.labels.contains s) &&
  (fn.labels.all fun b' => b' == b || (defs (fn.block b)).all fun d => !(defs (fn.block b')).contains d) &&
  decide (defs (fn.block b)).Nodup && bodyB fn dom start b [] (fn.block b).body &&
  ((termReads (fn.block b).term).all fun x => availB fn dom start x b) &&
  match (fn.block b).merge with
  | some (.selection m _) => dom b m && m != b && fn.labels.contains m
  | _ => true

theorem outsideB_sound {dom} (h : ∀ a b, dom a b = true → Dominates fn a b) {start : Id → Bool}
    (hs : ∀ x, start x = true → S.start x ≠ none) (he : ∀ b, b ∉ fn.labels → fn.block b = emptyBlock) {x b}
    (hb : outsideB fn dom start x b = true) : Outside S fn x b := by
  simp only [outsideB, Bool.or_eq_true, Bool.and_eq_true, List.all_eq_true, List.any_eq_true, bne_iff_ne,
    List.contains_iff_mem, Bool.not_eq_true', List.contains_eq_mem, decide_eq_false_iff_not, decide_eq_true_eq] at hb
  rcases hb with ⟨h1, h2⟩ | ⟨b', _, ⟨h1, h2⟩, h3⟩
  · refine .inl ⟨hs x h1, fun b' hb' => ?_⟩
    by_cases hl : b' ∈ fn.labels
    · exact h2 b' hl hb'
    · rw [he b' hl] at hb'; simp [defs, emptyBlock] at hb'
  · exact .inr ⟨b', h1, h2, h b' b h3⟩

theorem availB_sound {dom} (h : ∀ a b, dom a b = true → Dominates fn a b) {start : Id → Bool}
    (hs : ∀ x, start x = true → S.start x ≠ none) (he : ∀ b, b ∉ fn.labels → fn.block b = emptyBlock) {x b}
    (hb : availB fn dom start x b = true) : Avail S fn x b := by
  simp only [availB, Bool.or_eq_true, Bool.and_eq_true, List.all_eq_true, List.any_eq_true, bne_iff_ne,
    List.contains_iff_mem, Bool.not_eq_true', List.contains_eq_mem, decide_eq_false_iff_not, decide_eq_true_eq] at hb
  rcases hb with ⟨h1, h2⟩ | ⟨b', _, h2, h3⟩
  · refine .inl ⟨hs x h1, fun b' hb' => ?_⟩
    by_cases hl : b' ∈ fn.labels
    · exact h2 b' hl hb'
    · rw [he b' hl] at hb'; simp [defs, emptyBlock] at hb'
  · exact .inr ⟨b', h2, h b' b h3⟩

theorem bodyB_sound {dom start b} : ∀ {is : List Inst} {pre0 : List Id}, bodyB fn dom start b pre0 is = true →
    ∀ pre i post, is = pre ++ i :: post → ∀ x ∈ reads i,
      x ∈ pre0 ∨ x ∈ pre.map instId ∨ outsideB fn dom start x b = true
  | [], pre0, _, pre, i, post, e, _, _ => by simp at e
  | j :: is, pre0, h, pre, i, post, e, x, hx => by
    simp only [bodyB, Bool.and_eq_true, List.all_eq_true, Bool.or_eq_true, List.contains_iff_mem] at h
    cases pre with
    | nil =>
      simp at e
      obtain ⟨rfl, rfl⟩ := e
      rcases h.1 x hx with h' | h'
      · exact .inl h'
      · exact .inr (.inr h')
    | cons y pre =>
      simp at e
      obtain ⟨rfl, e⟩ := e
      rcases bodyB_sound h.2 pre i post e x hx with h' | h' | h'
      · rcases List.mem_cons.1 h' with rfl | h'
        · exact .inr (.inl (by simp))
        · exact .inl h'
      · exact .inr (.inl (by simp only [List.map_cons, List.mem_cons]; exact .inr h'))
      · exact .inr (.inr h')

theorem valid_by {dom} (h : ∀ a b, dom a b = true → Dominates fn a b) {start : Id → Bool}
    (hs : ∀ x, start x = true → S.start x ≠ none) (he : ∀ b, b ∉ fn.labels → fn.block b = emptyBlock)
    (hb : fn.labels.all (blockB fn dom start) = true) : Valid S fn := by
  have key : ∀ b, b ∈ fn.labels → blockB fn dom start b = true := fun b hl => List.all_eq_true.1 hb b hl
  simp only [blockB, Bool.and_eq_true, List.all_eq_true, Bool.or_eq_true, List.contains_iff_mem,
    List.isEmpty_iff, Bool.not_eq_true', List.contains_eq_mem, decide_eq_false_iff_not, decide_eq_true_eq,
    beq_iff_eq] at key
  have phis : ∀ b, (fn.block b).phis = [] := by
    intro b
    by_cases hl : b ∈ fn.labels
    · exact (key b hl).1.1.1.1.1.1.1
    · rw [he b hl]; rfl
  have succs : ∀ b, b ∉ fn.labels → fn.succs b = [] := by
    intro b hl; simp [Fn.succs, he b hl, emptyBlock, Term.succs]
  have hdefs : ∀ b, b ∉ fn.labels → defs (fn.block b) = [] := by
    intro b hl; simp [defs, he b hl, emptyBlock]
  have hterm : ∀ b, ∀ x ∈ termReads (fn.block b).term, Avail S fn x b := by
    intro b x hx
    by_cases hl : b ∈ fn.labels
    · exact availB_sound h hs he ((key b hl).1.2 x hx)
    · rw [he b hl] at hx; simp [emptyBlock, termReads] at hx
  exact {
    entry_phis := phis _
    entry_preds := fun b hx => by
      by_cases hl : b ∈ fn.labels
      · exact (key b hl).1.1.1.1.1.1.2 hx
      · rw [succs b hl] at hx; simp at hx
    labels := fun b hx => by
      apply Classical.byContradiction
      intro hl; exact hx (succs b hl)
    phi_preds := fun b φ hφ => by rw [phis] at hφ; simp at hφ
    phi_nodup := fun b => by rw [phis]; simp
    phi_avail := fun b φ hφ => by rw [phis] at hφ; simp at hφ
    cond_avail := fun b c t f ht => hterm b c (by rw [ht]; simp [termReads])
    listed := fun b hl => by rw [he b hl]; simp [emptyBlock, termReads]
    targets := fun b s hx => by
      by_cases hl : b ∈ fn.labels
      · exact (key b hl).1.1.1.1.1.2 s hx
      · rw [succs b hl] at hx; simp at hx
    once := fun d b b' h1 h2 => by
      have hl : b ∈ fn.labels := by
        apply Classical.byContradiction
        intro hl; rw [hdefs b hl] at h1; simp at h1
      have hl' : b' ∈ fn.labels := by
        apply Classical.byContradiction
        intro hl; rw [hdefs b' hl] at h2; simp at h2
      rcases (key b hl).1.1.1.1.2 b' hl' with e | e
      · exact e.symm
      · exact absurd h2 (e d h1)
    nodup := fun b => by
      by_cases hl : b ∈ fn.labels
      · exact (key b hl).1.1.1.2
      · rw [hdefs b hl]; simp
    ready := fun b pre i post e x hx => by
      by_cases hl : b ∈ fn.labels
      · rcases bodyB_sound (key b hl).1.1.2 pre i post e x hx with h' | h' | h'
        · simp at h'
        · exact .inr (.inl h')
        · exact .inr (.inr (outsideB_sound h hs he h'))
      · rw [he b hl] at e; simp [emptyBlock] at e
    term := hterm
    header := fun b m df hm => by
      by_cases hl : b ∈ fn.labels
      · have := (key b hl).2
        rw [hm] at this
        simp only [Bool.and_eq_true, bne_iff_ne, List.contains_iff_mem, decide_eq_true_eq,
          List.contains_eq_mem] at this
        exact ⟨h b m this.1.1, this.1.2, this.2⟩
      · rw [he b hl] at hm; simp [emptyBlock] at hm }

theorem valid_of {P} (h : allPaths fn P = true) {start : Id → Bool}
    (hs : ∀ x, start x = true → S.start x ≠ none) (he : ∀ b, b ∉ fn.labels → fn.block b = emptyBlock)
    (hb : fn.labels.all (blockB fn (domOf P) start) = true) : Valid S fn :=
  valid_by (fun a b => (domOf_iff h a b).1) hs he hb

end Verif.CodeSink.Spec
