import Verif.Licm.Hoist
import Verif.CodeSink.Small

/-!
# Lemmas: a check of dominators for small functions with loops (C72)
-/

set_option linter.unusedSimpArgs false
set_option linter.unusedVariables false

namespace Verif.Licm.Spec
open Verif.IfConv Verif.CodeSink Verif.CodeSink.Spec
open Verif.IfConv.Spec hiding Valid Right

variable {V M : Type} {S : Sem V M} {fn : Fn}

/-- Dominators of each reachable block. -/
abbrev Table := List (Lab × List Lab)

def info (T : Table) : Info where
  live b := (T.lookup b).isSome
  dom a b := match T.lookup b with
    | some l => l.contains a
    | none => true

/-- The table says nothing too much. -/
def tableB (fn : Fn) (T : Table) : Bool :=
  T.lookup fn.entry == some [fn.entry] &&
  T.all fun (b, l) => (fn.succs b).all fun s =>
    match T.lookup s with
    | some l' => l'.all fun a => (s :: (T.lookup b).getD []).contains a
    | none => false

/-- Enough paths to show that there are no more dominators. -/
def pathsB (fn : Fn) (T : Table) (W : List (List Lab)) : Bool :=
  W.all (isPath fn) &&
  T.all fun (b, _) => W.any (fun w => w.head? == some b) &&
    W.all fun w => w.head? != some b || w.all fun a => ((T.lookup b).getD []).contains a ||
      W.any fun w' => w'.head? == some b && !w'.contains a

theorem mem_of_lookup {T : Table} {b l} (h : T.lookup b = some l) : (b, l) ∈ T := by
  induction T with
  | nil => simp at h
  | cons x T ih =>
    obtain ⟨c, k⟩ := x
    simp only [List.lookup] at h
    split at h
    · rename_i e
      cases h
      have := eq_of_beq e
      subst this; simp
    · exact List.mem_cons_of_mem _ (ih h)

theorem table_path {T} (h : tableB fn T = true) : ∀ {l}, Path fn l → ∀ b l', l = b :: l' →
    ∃ k, T.lookup b = some k ∧ ∀ a ∈ k, a ∈ b :: l' := by
  simp only [tableB, Bool.and_eq_true, beq_iff_eq, List.all_eq_true] at h
  intro l hl
  induction hl with
  | entry =>
    intro b l' e
    simp at e
    obtain ⟨rfl, rfl⟩ := e
    exact ⟨_, h.1, fun a ha => ha⟩
  | @next a b' l hp hs ih =>
    intro b l' e
    simp at e
    obtain ⟨rfl, rfl⟩ := e
    obtain ⟨k, h1, h2⟩ := ih a l rfl
    have h3 := h.2 _ (mem_of_lookup h1) b' hs
    split at h3
    · rename_i k' hk'
      refine ⟨k', hk', fun x hx => ?_⟩
      have := List.all_eq_true.1 h3 x hx
      simp only [h1, Option.getD_some, List.contains_iff_mem, List.mem_cons] at this
      rcases this with e | this
      · exact List.mem_cons.2 (.inl e)
      · exact List.mem_cons.2 (.inr (h2 x this))
    · cases h3

theorem table_dom {T} (h : tableB fn T = true) (a b : Lab) (hd : (info T).dom a b = true) : Dominates fn a b := by
  intro l hl
  obtain ⟨k, h1, h2⟩ := table_path h hl b l rfl
  simp only [info, h1, List.contains_iff_mem] at hd
  exact h2 a hd

theorem table_right {T W} (h : tableB fn T = true) (hw : pathsB fn T W = true) : Right fn (info T) := by
  simp only [pathsB, Bool.and_eq_true, List.all_eq_true, List.any_eq_true, beq_iff_eq] at hw
  have toPath : ∀ {w b}, w ∈ W → w.head? = some b → ∃ l, w = b :: l ∧ Path fn (b :: l) := by
    intro w b h1 h2
    cases w with
    | nil => simp at h2
    | cons c l =>
      simp at h2
      subst h2
      exact ⟨l, rfl, isPath_path (hw.1 _ h1)⟩
  refine ⟨fun b => ⟨fun hb => ?_, fun ⟨l, hl⟩ => ?_⟩, fun a b hr => ⟨table_dom h a b, fun hd => ?_⟩⟩
  · simp only [info, Option.isSome_iff_exists] at hb
    obtain ⟨k, hk⟩ := hb
    obtain ⟨w, h1, h2⟩ := (hw.2 _ (mem_of_lookup hk)).1
    obtain ⟨l, _, h3⟩ := toPath h1 h2
    exact ⟨l, h3⟩
  · obtain ⟨k, h1, _⟩ := table_path h hl b l rfl
    simp [info, h1]
  · obtain ⟨l0, hl0⟩ := hr
    obtain ⟨k, h1, _⟩ := table_path h hl0 b l0 rfl
    obtain ⟨hA, hB⟩ := hw.2 _ (mem_of_lookup h1)
    obtain ⟨w, h2, h3⟩ := hA
    obtain ⟨l, rfl, h4⟩ := toPath h2 h3
    have h5 := hB _ h2
    simp only [List.head?_cons, bne_self_eq_false, Bool.false_or, List.all_eq_true] at h5
    have h6 := h5 a (hd l h4)
    simp only [h1, Option.getD_some, Bool.or_eq_true, List.any_eq_true, Bool.and_eq_true, beq_iff_eq,
      Bool.not_eq_true', List.contains_eq_mem, decide_eq_true_eq, decide_eq_false_iff_not] at h6
    rcases h6 with h6 | ⟨w', h7, h8, h9⟩
    · simp [info, h1, h6]
    · obtain ⟨l', rfl, h10⟩ := toPath h7 h8
      exact absurd (hd l' h10) h9

def closedB (fn : Fn) (A : Info) : Bool :=
  fn.labels.all fun h => match (fn.block h).merge with
    | some (.loop m _) => fn.labels.all fun a => (fn.succs a).all fun b => !(A.live a && A.dom m a && A.dom h b) || A.dom m b
    | _ => true

theorem closed_of {A} (hA : Right fn A) (he : ∀ b, b ∉ fn.labels → fn.block b = emptyBlock)
    (hc : closedB fn A = true) : Closed fn := by
  intro h m c hm a b hr hs h1 h2
  have hl : ∀ x, fn.block x ≠ emptyBlock → x ∈ fn.labels := fun x hx =>
    Classical.byContradiction fun hn => hx (he x hn)
  have hh := List.all_eq_true.1 hc h (hl h (by intro e; rw [e] at hm; simp [emptyBlock] at hm))
  rw [hm] at hh
  have ha := List.all_eq_true.1 (List.all_eq_true.1 hh a (hl a (by
    intro e; simp [Fn.succs, e, emptyBlock, Term.succs] at hs))) b hs
  obtain ⟨l, hp⟩ := hr
  have hrb : Reachable fn b := ⟨a :: l, hp.next hs⟩
  rw [(hA.live a).2 ⟨l, hp⟩, (hA.dom m a ⟨l, hp⟩).2 h1, (hA.dom h b hrb).2 h2] at ha
  exact (hA.dom m b hrb).1 (by simpa using ha)

end Verif.Licm.Spec
