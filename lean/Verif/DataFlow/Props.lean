import Verif.DataFlow.PostOrder

/-!
# C43: the data-flow engine stops at a fixpoint
-/
set_option linter.unusedSimpArgs false
set_option linter.unusedVariables false
set_option linter.unusedSectionVars false

namespace Verif.DataFlow

open Verif.Cfa.Spec (Reach Before)

variable {S ι : Type} [DecidableEq ι]

/-- **C43.** An analysis whose state moves down a well-founded order stops, and at the end
the instructions of the last initialisation (the first one, if it was the only one) are
stable. Nothing is assumed about `EnqueueSuccessors` being complete. -/
theorem run_fixpoint {A : Analysis S ι} {Dom : ι → Prop} {Inv : S → Prop} {lt : S → S → Prop}
    {Echo : ι → Prop} (H : Spec.Converges A Dom Inv lt Echo) {s : S} (hinv : Inv s) :
    ∃ s', run A s = some s' ∧ Inv s' ∧
      ((∀ i ∈ A.init true, Spec.Stable A s' i) ∨ (∀ i ∈ A.init false, Spec.Stable A s' i)) := by
  obtain ⟨s1, c', h1, h2, _, h4, h5⟩ := runOnce_spec H hinv true
  unfold run
  rw [runFrom, h1]
  dsimp only
  cases c' with
  | false => exact ⟨s1, rfl, h2, Or.inl (h5 rfl).2⟩
  | true =>
    obtain ⟨s', h6, h7, h8⟩ := runAgain_spec H h2
    exact ⟨s', h6, h7, Or.inr h8⟩

/-- **C43, complete successors.** If moreover `EnqueueSuccessors` enqueues whatever a change
destabilises, all instructions of the first initialisation are stable at the end, even if
later rounds initialise nothing. -/
theorem run_fixpoint_complete {A : Analysis S ι} {Dom : ι → Prop} {Inv : S → Prop}
    {lt : S → S → Prop} {Echo : ι → Prop} (H : Spec.Converges A Dom Inv lt Echo)
    (hc : Spec.Complete A Dom Inv) {s : S} (hinv : Inv s) :
    ∃ s', run A s = some s' ∧ Inv s' ∧ ∀ i ∈ A.init true, Spec.Stable A s' i := by
  obtain ⟨s1, c', h1, h2, _, h4, h5⟩ := runOnce_spec H hinv true
  have hs1 := runOnce_stable H hc (· ∈ A.init true) (H.init true) hinv true
    (fun i hi => Or.inr hi) h1
  unfold run
  rw [runFrom, h1]
  dsimp only
  cases c' with
  | false => exact ⟨s1, rfl, h2, hs1⟩
  | true =>
    obtain ⟨s', h6, h7, h8⟩ := runAgain_spec H h2
    exact ⟨s', h6, h7, runAgain_stable H hc (· ∈ A.init true) (H.init true) h2 hs1 h6⟩

/-! ## monotone analyses over a lattice of finite height -/

namespace Spec

/-- A fact for each instruction, computed from the facts of other instructions by a
monotone function; `L` has a least element and finite height. -/
structure Monotone {L : Type} (le : L → L → Prop) (bot : L) (rank : L → Nat) (height : Nat)
    (f : ι → (ι → L) → L) : Prop where
  refl : ∀ a, le a a
  trans : ∀ a b c, le a b → le b c → le a c
  antisymm : ∀ a b, le a b → le b a → a = b
  bot : ∀ a, le bot a
  rank_le : ∀ a, rank a ≤ height
  rank_lt : ∀ a b, le a b → a ≠ b → rank a < rank b
  mono : ∀ i x y, (∀ j, le (x j) (y j)) → le (f i x) (f i y)

/-- `EnqueueSuccessors` enqueues the readers of a fact. -/
def Readers {L : Type} (f : ι → (ι → L) → L) (all : List ι) (readers : ι → List ι) : Prop :=
  ∀ i, i ∈ all → ∀ j ∈ all, j ∉ readers i →
    ∀ x y : ι → L, (∀ k, k ≠ i → x k = y k) → f j x = f j y

end Spec

section lattice
variable {L : Type} [DecidableEq L]

/-- The analysis given by the functions `f`: a visit recomputes the fact and reports a
change if it differs. -/
def latticeAnalysis (init : Bool → List ι) (readers : ι → List ι) (f : ι → (ι → L) → L) :
    Analysis (ι → L) ι :=
  { init := init
    succs := fun i _ => readers i
    visit := fun i x =>
      if f i x = x i then (x, false) else (fun j => if j = i then f i x else x j, true) }

def potential (all : List ι) (rank : L → Nat) (height : Nat) (x : ι → L) : Nat :=
  (all.map fun i => height - rank (x i)).sum

theorem potential_lt {all : List ι} {rank : L → Nat} {height : Nat} (hr : ∀ a, rank a ≤ height)
    {x : ι → L} {i : ι} {v : L} (hi : i ∈ all) (hv : rank (x i) < rank v) :
    potential all rank height (fun j => if j = i then v else x j) <
      potential all rank height x := by
  unfold potential
  induction all with
  | nil => cases hi
  | cons a all ih =>
    have le : ∀ l : List ι, (l.map fun j => height - rank (if j = i then v else x j)).sum ≤
        (l.map fun j => height - rank (x j)).sum := by
      intro l
      induction l with
      | nil => simp
      | cons b l ih =>
        simp only [List.map_cons, List.sum_cons]
        by_cases hb : b = i
        · subst hb; rw [if_pos rfl]; omega
        · rw [if_neg hb]; omega
    simp only [List.map_cons, List.sum_cons]
    have hv' := hr v
    by_cases ha : a = i
    · subst ha; rw [if_pos rfl]; have := le all; omega
    · rw [if_neg ha]
      have := ih ((List.mem_cons.mp hi).resolve_left (Ne.symm ha))
      dsimp only at this
      omega

theorem lattice_converges {le : L → L → Prop} {bot : L} {rank : L → Nat} {height : Nat}
    {f : ι → (ι → L) → L} (M : Spec.Monotone le bot rank height f) (all : List ι)
    (init : Bool → List ι) (readers : ι → List ι) (hinit : ∀ b, ∀ i ∈ init b, i ∈ all)
    (hread : ∀ i ∈ all, ∀ j ∈ readers i, j ∈ all) :
    Spec.Converges (latticeAnalysis init readers f) (· ∈ all)
      (fun x => (∀ i ∈ all, le (x i) (f i x)) ∧
        ∀ y : ι → L, (∀ i ∈ all, le (f i y) (y i)) → ∀ i, le (x i) (y i))
      (fun x y => potential all rank height x < potential all rank height y) (fun _ => False) := by
  refine ⟨(measure (potential all rank height)).wf, hinit, fun i _ hi _ => hread i hi, ?_, ?_, ?_,
    fun _ _ h => h⟩
  · rintro i x hi ⟨h1, h2⟩
    simp only [latticeAnalysis]
    split
    · exact ⟨h1, h2⟩
    · have hup : ∀ j, le (x j) (if j = i then f i x else x j) := by
        intro j
        by_cases hj : j = i
        · subst hj; rw [if_pos rfl]; exact h1 j hi
        · rw [if_neg hj]; exact M.refl _
      refine ⟨?_, ?_⟩
      · intro j hj
        dsimp only
        have := M.mono j x _ hup
        by_cases hji : j = i
        · subst hji; rw [if_pos rfl]; exact this
        · rw [if_neg hji]; exact M.trans _ _ _ (h1 j hj) this
      · intro y hy j
        dsimp only
        by_cases hji : j = i
        · subst hji; rw [if_pos rfl]
          exact M.trans _ _ _ (M.mono j x y (h2 y hy)) (hy j hi)
        · rw [if_neg hji]; exact h2 y hy j
  · rintro i x hi _ h
    simp only [latticeAnalysis] at h ⊢
    split at h
    · rename_i hf; rw [if_pos hf]
    · cases h
  · rintro i x hi ⟨h1, h2⟩ h
    simp only [latticeAnalysis] at h ⊢
    split at h
    · cases h
    · rename_i hf
      rw [if_neg hf]
      exact Or.inl (potential_lt M.rank_le hi (M.rank_lt _ _ (h1 i hi) (fun e => hf e.symm)))

/-- **C43, monotone analyses.** Started from the least element, with every instruction of
the function in each initialisation, the engine stops with the least solution of the
equations, in whatever order instructions are enqueued. -/
theorem run_least_solution {le : L → L → Prop} {bot : L} {rank : L → Nat} {height : Nat}
    {f : ι → (ι → L) → L} (M : Spec.Monotone le bot rank height f) (all : List ι)
    (init : Bool → List ι) (readers : ι → List ι)
    (hinit : ∀ b i, i ∈ init b ↔ i ∈ all) (hread : ∀ i ∈ all, ∀ j ∈ readers i, j ∈ all) :
    ∃ x, run (latticeAnalysis init readers f) (fun _ => bot) = some x ∧
      (∀ i ∈ all, f i x = x i) ∧
      ∀ y : ι → L, (∀ i ∈ all, f i y = y i) → ∀ i ∈ all, le (x i) (y i) := by
  have H := lattice_converges M all init readers (fun b i hi => (hinit b i).mp hi) hread
  obtain ⟨x, h1, h2, h3⟩ := run_fixpoint H (s := fun _ => bot)
    ⟨fun i _ => M.bot _, fun y _ i => M.bot _⟩
  refine ⟨x, h1, ?_, ?_⟩
  · intro i hi
    have hst : Spec.Stable (latticeAnalysis init readers f) x i := by
      rcases h3 with h3 | h3
      · exact h3 i ((hinit true i).mpr hi)
      · exact h3 i ((hinit false i).mpr hi)
    simp only [Spec.Stable, latticeAnalysis] at hst
    split at hst
    · assumption
    · have := congrFun hst i
      simp only [if_true] at this
      exact this
  · intro y hy i hi
    exact h2.2 y (fun i hi => by rw [hy i hi]; exact M.refl _) i

/-- **C43, monotone analyses, one initialisation.** The same if only the first round
initialises the work list and `EnqueueSuccessors` enqueues the readers of a changed fact. -/
theorem run_least_solution_complete {le : L → L → Prop} {bot : L} {rank : L → Nat} {height : Nat}
    {f : ι → (ι → L) → L} (M : Spec.Monotone le bot rank height f) (all : List ι)
    (init : Bool → List ι) (readers : ι → List ι)
    (hinit : ∀ i, i ∈ init true ↔ i ∈ all) (hfalse : init false = [])
    (hread : ∀ i ∈ all, ∀ j ∈ readers i, j ∈ all) (hdep : Spec.Readers f all readers) :
    ∃ x, run (latticeAnalysis init readers f) (fun _ => bot) = some x ∧
      (∀ i ∈ all, f i x = x i) ∧
      ∀ y : ι → L, (∀ i ∈ all, f i y = y i) → ∀ i ∈ all, le (x i) (y i) := by
  have H := lattice_converges M all init readers (by
    intro b i hi
    cases b with
    | true => exact (hinit i).mp hi
    | false => rw [hfalse] at hi; cases hi) hread
  have hst : ∀ x i, Spec.Stable (latticeAnalysis init readers f) x i ↔ f i x = x i := by
    intro x i
    simp only [Spec.Stable, latticeAnalysis]
    split
    · simp_all
    · rename_i hne
      constructor
      · intro h
        have := congrFun h i
        simp only [if_true] at this
        exact this
      · intro h; exact absurd h hne
  have hc : Spec.Complete (latticeAnalysis init readers f) (· ∈ all)
      (fun x => (∀ i ∈ all, le (x i) (f i x)) ∧
        ∀ y : ι → L, (∀ i ∈ all, le (f i y) (y i)) → ∀ i, le (x i) (y i)) := by
    intro i x hi _ hv j hj hor
    simp only [hst] at hor ⊢
    by_cases hr : j ∈ readers i
    · exact Or.inr hr
    · left
      simp only [latticeAnalysis] at hv ⊢
      split at hv
      · cases hv
      · rename_i hne
        rw [if_neg hne]
        have heq : f j (fun k => if k = i then f i x else x k) = f j x :=
          hdep i hi j hj hr _ _ (fun k hk => by rw [if_neg hk])
        dsimp only
        rw [heq]
        by_cases hji : j = i
        · subst hji; rw [if_pos rfl]
        · rw [if_neg hji]; exact hor.resolve_left hji
  obtain ⟨x, h1, h2, h3⟩ := run_fixpoint_complete H hc (s := fun _ => bot)
    ⟨fun i _ => M.bot _, fun y _ i => M.bot _⟩
  refine ⟨x, h1, ?_, ?_⟩
  · intro i hi
    exact (hst x i).mp (h3 i ((hinit i).mpr hi))
  · intro y hy i hi
    exact h2.2 y (fun i hi => by rw [hy i hi]; exact M.refl _) i

end lattice

/-! ## the initial order -/

/-- The post-order traversal lists exactly the blocks reachable from the given one, each
once. A block comes after all its successors, except where the edge closes a cycle. -/
theorem postOrder_exact (C : Cfg ι) (entry : Nat) (all : List Nat)
    (hall : ∀ x, Reach (Spec.Flow C) entry x → x ∈ all ∧ ∃ blk, C x = some blk) :
    ∃ o, postOrder C entry = some o ∧ o.Nodup ∧
      (∀ b, b ∈ o ↔ Reach (Spec.Flow C) entry b) ∧
      ∀ u v, u ∈ o → Spec.Flow C u v → Before o v u ∨ Reach (Spec.Flow C) v u := by
  obtain ⟨o, h1, seen', h2⟩ := postOrderLoop_spec C entry all hall _ [entry] [] []
    ⟨Chain.one, by simp, by simp, by simp, by simp, by simp, by simp, by simp, by simp, by simp⟩
    (Nat.le_refl _)
  refine ⟨o, h1, h2.ond, ?_, fun u v hu hv => (h2.closed u hu v hv).2⟩
  intro b
  constructor
  · exact h2.reach b
  · intro h
    induction h with
    | refl => exact h2.start.resolve_left (by simp)
    | tail _ hf ih => exact ((h2.closed _ ih _ hf).1).resolve_left (by simp)

/-- A label outside the function makes the traversal use a null block. -/
theorem postOrder_null (entry : Nat) (l : ι) :
    postOrder (fun b => if b = entry then some ⟨l, [], [entry + 1]⟩ else none) entry = none := by
  unfold postOrder
  rw [postOrderLoop]
  simp
  rw [postOrderLoop]
  simp

/-- `ForwardDataFlowAnalysis` initialises the work list with exactly the instructions (and,
according to the label position, the labels) of the reachable blocks. -/
theorem forwardInit_exact (C : Cfg ι) (pos : LabelPosition) (entry : Nat) (all : List Nat)
    (hall : ∀ x, Reach (Spec.Flow C) entry x → x ∈ all ∧ ∃ blk, C x = some blk) :
    ∃ l, forwardInit C pos entry = some l ∧
      ∀ i, i ∈ l ↔ ∃ b blk, Reach (Spec.Flow C) entry b ∧ C b = some blk ∧
        ((pos ≠ .only ∧ i ∈ blk.insts) ∨ (pos ≠ .none ∧ i = blk.label)) := by
  obtain ⟨o, h1, _, h3, _⟩ := postOrder_exact C entry all hall
  refine ⟨_, by unfold forwardInit reversePostOrder; rw [h1]; rfl, ?_⟩
  intro i
  rw [List.mem_flatMap]
  have key : ∀ blk : Block ι, i ∈ blockInsts pos blk ↔
      (pos ≠ .only ∧ i ∈ blk.insts) ∨ (pos ≠ .none ∧ i = blk.label) := by
    intro blk
    cases pos <;> simp [blockInsts, or_comm]
  constructor
  · rintro ⟨b, hb, hi⟩
    have hr := (h3 b).mp (List.mem_reverse.mp hb)
    obtain ⟨_, blk, hblk⟩ := hall b hr
    rw [hblk] at hi
    exact ⟨b, blk, hr, hblk, (key blk).mp hi⟩
  · rintro ⟨b, blk, hr, hblk, hi⟩
    refine ⟨b, List.mem_reverse.mpr ((h3 b).mpr hr), ?_⟩
    rw [hblk]
    exact (key blk).mpr hi

/-- **C43, forward analyses.** With the base class's initialisation in every round, at the
end every instruction of every reachable block (as the label position says) is stable. -/
theorem forward_fixpoint {A : Analysis S ι} {Dom : ι → Prop} {Inv : S → Prop} {lt : S → S → Prop}
    {Echo : ι → Prop} (H : Spec.Converges A Dom Inv lt Echo) {s : S} (hinv : Inv s)
    (C : Cfg ι) (pos : LabelPosition) (entry : Nat) (all : List Nat)
    (hall : ∀ x, Reach (Spec.Flow C) entry x → x ∈ all ∧ ∃ blk, C x = some blk)
    (hA : ∀ b, some (A.init b) = forwardInit C pos entry) :
    ∃ s', run A s = some s' ∧ Inv s' ∧
      ∀ b blk i, Reach (Spec.Flow C) entry b → C b = some blk →
        ((pos ≠ .only ∧ i ∈ blk.insts) ∨ (pos ≠ .none ∧ i = blk.label)) → Spec.Stable A s' i := by
  obtain ⟨s', h1, h2, h3⟩ := run_fixpoint H hinv
  obtain ⟨l, h4, h5⟩ := forwardInit_exact C pos entry all hall
  refine ⟨s', h1, h2, ?_⟩
  intro b blk i hr hb hi
  have hmem := (h5 i).mpr ⟨b, blk, hr, hb, hi⟩
  rcases h3 with h3 | h3
  · refine h3 i ?_
    have := hA true; rw [h4] at this; cases this; exact hmem
  · refine h3 i ?_
    have := hA false; rw [h4] at this; cases this; exact hmem

/-- The base class's `EnqueueSuccessors` enqueues all readers of a fact when the fact of an
instruction depends on its operands only, and that of a label also on the labels of the
preceding blocks. -/
theorem forwardSuccs_readers {L : Type} (f : ι → (ι → L) → L) (all : List ι) (C : Cfg ι)
    (users : ι → List ι) (blockOf : ι → Option (Block ι))
    (hf : ∀ j ∈ all, ∀ x y : ι → L,
      (∀ i, (j ∈ users i ∨ ∃ blk s blk', blockOf i = some blk ∧ s ∈ blk.succs ∧ C s = some blk' ∧
        j = blk'.label) → x i = y i) → f j x = f j y) :
    Spec.Readers f all (forwardSuccs C users blockOf) := by
  intro i hi j hj hno x y hxy
  apply hf j hj x y
  intro k hk
  apply hxy
  rintro rfl
  apply hno
  unfold forwardSuccs
  rcases hk with h | ⟨blk, s, blk', h1, h2, h3, rfl⟩
  · exact List.mem_append_left _ h
  · apply List.mem_append_right
    rw [h1]
    exact List.mem_filterMap.mpr ⟨s, h2, by rw [h3]; rfl⟩

/-! ## why the hypotheses are needed -/

/-- An analysis that reports a change without one in every round does not stop. -/
theorem echo_diverges : run (⟨fun _ => [()], fun _ _ => [], fun _ s => (s, true)⟩ :
    Analysis Unit Unit) () = none := by
  have once : ∀ b, runOnce (⟨fun _ => [()], fun _ _ => [], fun _ s => (s, true)⟩ :
      Analysis Unit Unit) () Work.empty b = some ((), Work.empty, true) := by
    intro b
    unfold runOnce
    rw [drain_cons (q := []) (i := ()) _ _ _ _ rfl]
    rw [if_pos rfl, drain_nil _ _ _ _ rfl]
    rfl
  have key : ∀ r, runFrom (⟨fun _ => [()], fun _ _ => [], fun _ s => (s, true)⟩ :
      Analysis Unit Unit) () Work.empty true = some r → False := by
    intro r hr
    have := runFrom.partial_correctness (⟨fun _ => [()], fun _ _ => [], fun _ s => (s, true)⟩ :
      Analysis Unit Unit) (fun _ w _ _ => w = Work.empty → False) (by
        intro g ih s w first r hr hw
        subst hw
        rw [once] at hr
        simp only [if_true] at hr
        exact ih _ _ _ _ hr rfl) () Work.empty true r hr
    exact this rfl
  unfold run
  cases h : runFrom (⟨fun _ => [()], fun _ _ => [], fun _ s => (s, true)⟩ :
      Analysis Unit Unit) () Work.empty true with
  | none => rfl
  | some r => exact absurd h (fun h => key r h)

/-! ## the hypotheses are satisfiable -/

/-- Reachability from instruction 0 along 0 → 1 → 2 → 1 as a monotone analysis. -/
def exF : Nat → (Nat → Bool) → Bool
  | 0, _ => true
  | 1, x => x 0 || x 2
  | 2, x => x 1
  | _, _ => false

def exReaders : Nat → List Nat
  | 0 => [1] | 1 => [2] | 2 => [1] | _ => []

example : Spec.Monotone (fun a b : Bool => a ≤ b) false (fun b => b.toNat) 1 exF := by
  refine ⟨by decide, by decide, by decide, by decide, by decide, by decide, ?_⟩
  intro i x y h
  match i with
  | 0 => exact Bool.le_refl _
  | 1 =>
    have h0 := h 0; have h2 := h 2
    simp only [exF]; revert h0 h2
    cases x 0 <;> cases x 2 <;> cases y 0 <;> cases y 2 <;> decide
  | 2 => exact h 1
  | n + 3 => exact Bool.le_refl _

example : Spec.Readers exF [0, 1, 2, 3] exReaders := by
  intro i hi j hj hr x y hxy
  simp only [List.mem_cons, List.not_mem_nil, or_false] at hi hj
  rcases hi with rfl | rfl | rfl | rfl <;> rcases hj with rfl | rfl | rfl | rfl <;>
    simp [exF, exReaders] at hr hxy ⊢ <;> simp [hxy]

example (x : Nat → Bool) (h : ∀ i ∈ [0, 1, 2, 3], exF i x = x i) : x 2 = true ∧ x 3 = false := by
  have h0 := h 0 (by simp); have h1 := h 1 (by simp); have h2 := h 2 (by simp)
  have h3 := h 3 (by simp)
  simp only [exF] at h0 h1 h2 h3
  rw [← h0] at h1
  simp at h1
  exact ⟨by rw [← h2, ← h1], h3.symm⟩

/-- A loop 1 → 2 → {1, 3}. -/
def exCfg : Cfg Nat := fun b =>
  if b = 1 then some ⟨10, [11], [2]⟩ else if b = 2 then some ⟨20, [21, 22], [1, 3]⟩
  else if b = 3 then some ⟨30, [], []⟩ else if b = 4 then some ⟨40, [], [1]⟩ else none

example : ∀ x, Reach (Spec.Flow exCfg) 1 x → x ∈ [1, 2, 3] ∧ ∃ blk, exCfg x = some blk := by
  intro x h
  have : x ∈ [1, 2, 3] := by
    induction h with
    | refl => simp
    | @tail b c _ hf ih =>
      obtain ⟨blk, h1, h2⟩ := hf
      simp only [List.mem_cons, List.not_mem_nil, or_false] at ih
      rcases ih with rfl | rfl | rfl <;> simp [exCfg] at h1 <;> subst h1 <;> simp at h2 ⊢ <;> omega
  refine ⟨this, ?_⟩
  simp only [List.mem_cons, List.not_mem_nil, or_false] at this
  rcases this with rfl | rfl | rfl
  · exact ⟨_, rfl⟩
  · exact ⟨_, rfl⟩
  · exact ⟨_, rfl⟩

example : forwardInit exCfg .atEnd 1 = some [11, 10, 21, 22, 20, 30] := by
  unfold forwardInit reversePostOrder postOrder
  iterate 6 (rw [postOrderLoop]; simp [exCfg])
  rfl

end Verif.DataFlow
