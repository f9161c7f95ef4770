import Verif.BlockMerge.Structure
import Verif.Licm.Small

/-!
# Properties: merging of blocks (C73)

`Merges A live fn fn'`: `fn'` is what the pass may make of `fn`. `live` is what the pass takes for reachable; all
that is asked of it is that it be.
-/

namespace Verif.BlockMerge
open Verif.IfConv Verif.CodeSink Verif.CodeSink.Spec
open Verif.IfConv.Spec hiding Valid Right
open Verif.BlockMerge.Spec

variable {V M : Type} {S : Sem V M}

/-- Runs are kept, both ways: the same blocks in the same order, but for those that are gone, the same memory, the
same way on, the same values of all ids but the phis of blocks that are gone, and of all that terminators read. -/
theorem runs_kept {A live} {fn fn' : Fn} (hl : ∀ f b, live f b → Reachable f b) (h : Merges A live fn fn')
    (hv : Spec.Valid S fn) : RunsForth S fn fn' ∧ RunsBack S fn fn' := by
  obtain ⟨_, _, h1, h2⟩ := merges_spec hl h hv
  refine ⟨fun l c hc hb => ?_, fun l' c' hc' => ?_⟩
  · obtain ⟨c', k1, k2⟩ := h1 l c hc hb
    exact ⟨c', k1, k2.same⟩
  · obtain ⟨l, c, k1, k2, k3⟩ := h2 l' c' hc'
    exact ⟨l, c, k1, k2, k3.same⟩

/-- What a function may end with is kept: memory and what is returned. -/
theorem results_kept {A live} {fn fn' : Fn} (hl : ∀ f b, live f b → Reachable f b) (h : Merges A live fn fn')
    (hv : Spec.Valid S fn) (m : M) (vs : List (Option V)) : EndsWith S fn' m vs ↔ EndsWith S fn m vs := by
  obtain ⟨h1, h2⟩ := runs_kept hl h hv
  constructor
  · rintro ⟨l', c', hr, hg, rfl, rfl⟩
    obtain ⟨l, c, k1, _, k2⟩ := h2 l' c' hr
    exact ⟨l, c, k1, fun b hb => hg b ((k2.goes b).2 hb), k2.mem.symm, k2.reads.symm⟩
  · rintro ⟨l, c, hr, hg, rfl, rfl⟩
    obtain ⟨c', k1, k2⟩ := h1 l c hr (fun s hs => absurd (by rw [hs]; exact .br) (hg s))
    exact ⟨_, c', k1, fun b hb => hg b ((k2.goes b).1 hb), k2.mem, k2.reads⟩

/-- The function stays valid: definitions dominate uses, phis have one value for each predecessor, headers
dominate their merge blocks. -/
theorem valid_kept {A live} {fn fn' : Fn} (hl : ∀ f b, live f b → Reachable f b) (h : Merges A live fn fn')
    (hv : Spec.Valid S fn) : Spec.Valid S fn' := (merges_spec hl h hv).1

/-- No block becomes the merge block of two headers, and no loop header gets a terminator that a loop header may
not have. -/
theorem structured_kept {A live} {fn fn' : Fn} (hl : ∀ f b, live f b → Reachable f b) (h : Merges A live fn fn')
    (hv : Spec.Valid S fn) (hs : Structured fn) : Structured fn' := merges_structured hl h hv hs

/-- No merge instruction is lost, but that of a header that is merged with its own merge block; their blocks are
renamed. -/
theorem headers_kept {A} {fn : Fn} {b s : Lab} (hv : Spec.Valid S fn) (hr : Reachable fn b)
    (hc : canMerge fn A b = some s) {h : Lab} {M : Merge} (hM : (fn.block h).merge = some M)
    (hn : ¬ (h = b ∧ mergeTarget M = s)) :
    ((mergeBlocks fn b s).block (if h = s then b else h)).merge = some (match M with
      | .selection m df => .selection (if m = s then b else m) df
      | .loop m c => .loop (if m = s then b else m) (if c = s then b else c)) := by
  have := merge_headers hv hr hc hM hn
  cases M <;> exact this

/-- When blocks are merged. -/
theorem merged_iff {fn : Fn} {A : Info} {b s : Lab} : canMerge fn A b = some s ↔
    (fn.block b).term = .br s ∧ (fn.preds s).length = 1 ∧
    (MergeBlock fn s → ¬ MergeBlock fn b ∧ A.reconverge = false) ∧
    (ContinueTarget fn s → ¬ MergeBlock fn b) ∧
    (∀ M, (fn.block b).merge = some M → mergeTarget M ≠ s →
      (fn.block s).merge = none ∧ ∀ g o t, (fn.block s).term ≠ .multi g o t) ∧
    (MergeBlock fn s ∨ ContinueTarget fn s → ¬ CaseOf fn A.switch b) := by
  simp only [← isMerge_of, ← isContinue_of, ← switchOk_of]
  constructor
  · intro h
    obtain ⟨h1, h2, h3, h4, h5, h6, h7⟩ := can_of h
    refine ⟨h1, h2, fun h => ⟨fun h' => h3 ⟨h', h⟩, by simpa using fun h' => h4 ⟨h, h'⟩⟩, fun h h' => h5 ⟨h', h⟩,
      fun M hM hn => (h6 M hM).resolve_left hn, h7⟩
  · rintro ⟨h1, h2, h3, h4, h5, h6⟩
    unfold canMerge
    rw [h1]
    simp only
    rw [if_neg (by simpa using h2), if_neg (by
      simp only [Bool.and_eq_true]; rintro ⟨k1, k2⟩; exact (h3 k2).1 k1), if_neg (by
      simp only [Bool.and_eq_true]; rintro ⟨k1, k2⟩; rw [(h3 k1).2] at k2; cases k2), if_neg (by
      simp only [Bool.and_eq_true]; rintro ⟨k1, k2⟩; exact h4 k2 k1), if_neg, if_neg]
    · simp only [Bool.and_eq_true, Bool.or_eq_true, Bool.not_eq_true']
      rintro ⟨k1, k2⟩
      rw [h6 k1] at k2; cases k2
    · intro k
      split at k
      · rename_i M hM
        simp only [Bool.and_eq_true, bne_iff_ne, Bool.or_eq_true] at k
        obtain ⟨k1, k2⟩ := h5 M hM k.1
        rcases k.2 with k3 | k3
        · unfold isHeader at k3; rw [k1] at k3; cases k3
        · split at k3
          · cases k3
          · cases k3
          · rename_i e; exact k2 _ _ _ e
      · cases k

/-- Two blocks, with a phi in the second. -/
def two : Fn where
  entry := 0
  labels := [0, 1]
  block
    | 0 => ⟨[], [.op 10 []], none, .br 1⟩
    | 1 => ⟨[⟨11, false, [(10, 0)]⟩], [.op 12 [11]], none, .multi 0 [12, 11] []⟩
    | _ => ⟨[], [], none, .multi 0 [] []⟩

def sem2 : Sem Nat (List Nat) where
  start _ := none
  mem := []
  act d xs m x m' := x = d + xs.sum ∧ m' = d :: m
  jump _ _ _ _ := False
  truth v := v != 0

def noInfo : Info := ⟨false, fun _ => none⟩

def both : Fn := mergeBlocks two 0 1

theorem two_listed : ∀ b, b ∉ two.labels → two.block b = ⟨[], [], none, .multi 0 [] []⟩ := by
  intro b hb
  simp only [two]
  split <;> first | rfl | exact absurd (by decide) hb

theorem two_all {P : Block → Lab → Prop} (h0 : P (two.block 0) 0) (h1 : P (two.block 1) 1)
    (h : ∀ b, P ⟨[], [], none, .multi 0 [] []⟩ b) (b : Lab) : P (two.block b) b := by
  by_cases hb : b ∈ two.labels
  · have : b = 0 ∨ b = 1 := by simpa [two] using hb
    rcases this with rfl | rfl
    · exact h0
    · exact h1
  · rw [two_listed b hb]; exact h b

theorem two_dom : Dominates two 0 1 ∧ Dominates two 0 0 ∧ Dominates two 1 1 := by
  have ht : Licm.Spec.tableB two [(0, [0]), (1, [1, 0])] = true := by decide
  exact ⟨Licm.Spec.table_dom ht 0 1 (by decide), Licm.Spec.table_dom ht 0 0 (by decide),
    Licm.Spec.table_dom ht 1 1 (by decide)⟩

theorem two_valid : Spec.Valid sem2 two := by
  have h10 : Avail sem2 two 10 0 := .inr ⟨0, by decide, two_dom.2.1⟩
  have h11 : Avail sem2 two 11 1 := .inr ⟨1, by decide, two_dom.2.2⟩
  have h12 : Avail sem2 two 12 1 := .inr ⟨1, by decide, two_dom.2.2⟩
  have hdef : ∀ d b, d ∈ defs (two.block b) → b = if d = 10 then 0 else 1 := by
    intro d
    refine two_all (P := fun B b => d ∈ defs B → b = if d = 10 then 0 else 1) ?_ ?_ ?_
    · intro h; simp [two, defs, instId] at h; simp [h]
    · intro h; simp [two, defs, instId] at h; rcases h with h | h <;> simp [h]
    · intro b h; simp [defs] at h
  exact {
    entry_phis := rfl
    entry_preds := fun b => two_all (P := fun B _ => 0 ∉ B.term.succs) (by decide) (by decide) (by intro; decide) b
    labels := fun b hb => Classical.byContradiction fun hn => by
      simp [Fn.succs, two_listed b hn, Term.succs] at hb
    phi_preds := fun b φ hφ => by
      have := two_all (P := fun B b => ∀ φ ∈ B.phis, b = 1 ∧ φ.args = [(10, 0)]) (by decide) (by decide)
        (by intro _ φ hφ; cases hφ) b φ hφ
      rw [this.2, this.1]
      refine ⟨by decide, fun p => ?_⟩
      simp only [Fn.succs, two]
      split <;> simp_all [Term.succs]
    phi_nodup := fun b => two_all (P := fun B _ => (B.phis.map (·.id)).Nodup) (by decide) (by decide)
      (by intro; decide) b
    phi_avail := fun b φ hφ a ha => by
      have := two_all (P := fun B b => ∀ φ ∈ B.phis, b = 1 ∧ φ.args = [(10, 0)]) (by decide) (by decide)
        (by intro _ φ hφ; cases hφ) b φ hφ
      rw [this.2] at ha
      simp at ha
      subst ha; exact h10
    cond_avail := fun b c t f h => by
      have := two_all (P := fun B _ => B.term ≠ .cond c t f) (by simp [two]) (by simp [two]) (by simp) b
      exact absurd h this
    listed := fun b hb => by rw [two_listed b hb]; exact ⟨rfl, rfl, rfl⟩
    targets := fun b => two_all (P := fun B _ => ∀ s ∈ B.term.succs, s ∈ two.labels) (by decide) (by decide)
      (by intro; decide) b
    once := fun d b b' h1 h2 => (hdef d b h1).trans (hdef d b' h2).symm
    nodup := fun b => two_all (P := fun B _ => (defs B).Nodup) (by decide) (by decide) (by intro; decide) b
    ready := fun b pre i post hb x hx => by
      have h := two_all (P := fun B _ => B.body = pre ++ i :: post → reads i = [] ∨ (reads i = [11] ∧ B.phis.map Phi.id = [11]))
        (by
          intro h
          cases pre with
          | nil => simp [two] at h; left; rw [← h.1]; rfl
          | cons a p => simp [two] at h)
        (by
          intro h
          cases pre with
          | nil => simp [two] at h; right; rw [← h.1]; exact ⟨rfl, rfl⟩
          | cons a p => simp [two] at h)
        (by intro _ h; simp at h) b hb
      rcases h with h | ⟨h, h'⟩
      · rw [h] at hx; cases hx
      · rw [h] at hx; simp at hx; subst hx
        exact .inl (by rw [h']; simp)
    term := fun b => two_all (P := fun B b => ∀ x ∈ termReads B.term, Avail sem2 two x b)
      (by intro x hx; simp [two, termReads] at hx)
      (by intro x hx; simp [two, termReads] at hx; rcases hx with rfl | rfl <;> assumption)
      (by intro _ x hx; simp [termReads] at hx) b
    header := fun b m df h => by
      have := two_all (P := fun B _ => B.merge = none) rfl rfl (fun _ => rfl) b
      rw [this] at h; cases h
    first := by decide }

theorem two_merges : Merges (fun _ => noInfo) Reachable two both :=
  .one (b := 0) (s := 1) ⟨[], .entry⟩ (by decide) .none

/-- The hypotheses of the theorems above hold for it, and the block is gone. -/
example : (∀ f b, Reachable f b → Reachable f b) ∧ Merges (fun _ => noInfo) Reachable two both ∧
    Spec.Valid sem2 two ∧ Structured two ∧ both.labels = [0] ∧
    both.block 0 = ⟨[], [.op 10 [], .op 12 [10]], none, .multi 0 [12, 10] []⟩ := by
  refine ⟨fun _ _ h => h, two_merges, two_valid, ⟨?_, ?_⟩, rfl, rfl⟩
  · intro h h' M M' _ _ hM
    have := two_all (P := fun B _ => B.merge = none) rfl rfl (fun _ => rfl) h
    rw [this] at hM; cases hM
  · intro h m c _ hM
    have := two_all (P := fun B _ => B.merge = none) rfl rfl (fun _ => rfl) h
    rw [this] at hM; cases hM

/-- It ends with 22 and 10. -/
example : EndsWith sem2 two [12, 10] [some 22, some 10] ∧ EndsWith sem2 both [12, 10] [some 22, some 10] := by
  have h : EndsWith sem2 two [12, 10] [some 22, some 10] := by
    refine ⟨[1, 0], ⟨1, define (phiEnv (define sem2.start 10 10) 0 (two.block 1).phis) 12 22, [12, 10]⟩,
      .step (c := ⟨0, define sem2.start 10 10, [10]⟩) (c' := ⟨1, _, _⟩) (.start ⟨rfl, ?_⟩) (.mk .br (by decide) ?_),
      ?_, rfl, rfl⟩
    · exact .op (xs := []) (x := 10) rfl ⟨rfl, rfl⟩ .nil
    · exact .op (xs := [10]) (x := 22) rfl ⟨rfl, rfl⟩ .nil
    · intro b hb
      cases hb with
      | multi _ h _ => exact h
  exact ⟨h, (results_kept (fun _ _ h => h) two_merges two_valid _ _).2 h⟩

/-- A loop: its header 1 is merged with 2, its merge block 4 with 5. -/
def loop : Fn where
  entry := 0
  labels := [0, 1, 2, 3, 4, 5]
  block
    | 0 => ⟨[], [], none, .br 1⟩
    | 1 => ⟨[], [.op 10 []], some (.loop 4 3), .br 2⟩
    | 2 => ⟨[], [.op 11 [10]], none, .cond 11 3 4⟩
    | 3 => ⟨[], [.op 12 [11]], none, .br 1⟩
    | 4 => ⟨[], [.op 13 [11]], none, .br 5⟩
    | 5 => ⟨[], [], none, .multi 0 [13] []⟩
    | _ => ⟨[], [], none, .multi 0 [] []⟩

theorem loop_listed : ∀ b, b ∉ loop.labels → loop.block b = emptyBlock := by
  intro b hb
  simp only [loop]
  split <;> first | rfl | exact absurd (by decide) hb

theorem loop_valid : Spec.Valid sem2 loop where
  toBase := valid_by (dom := (Licm.Spec.info [(0, [0]), (1, [1, 0]), (2, [2, 1, 0]), (3, [3, 2, 1, 0]),
      (4, [4, 2, 1, 0]), (5, [5, 4, 2, 1, 0])]).dom) (start := fun _ => false)
    (Licm.Spec.table_dom (by decide)) (fun x hx => by cases hx) loop_listed (by decide)
  first := by decide

theorem loop_reach (b : Lab) (h : b = 1 ∨ b = 4) (fn : Fn) (hf : fn = loop ∨ fn = mergeBlocks loop 1 2) :
    Reachable fn b := by
  have p1 : Path loop [1, 0] := .next .entry (by decide)
  have p2 : Path loop [4, 2, 1, 0] := .next (.next p1 (by decide)) (by decide)
  have q1 : Path (mergeBlocks loop 1 2) [1, 0] := .next .entry (by decide)
  have q2 : Path (mergeBlocks loop 1 2) [4, 1, 0] := .next q1 (by decide)
  rcases h with rfl | rfl <;> rcases hf with rfl | rfl
  · exact ⟨_, p1⟩
  · exact ⟨_, q1⟩
  · exact ⟨_, p2⟩
  · exact ⟨_, q2⟩

theorem loop_structured : Structured loop where
  merge_once := by
    intro h h' M M' hh hh' hM hM' _
    have key : ∀ h ∈ loop.labels, (loop.block h).merge = none ∨ h = 1 := by decide
    have k := fun h M hh (hM : (loop.block h).merge = some M) => (key h hh).resolve_left (by rw [hM]; simp)
    rw [k h M hh hM, k h' M' hh' hM']
  loop_term := by
    intro h m c hh hM g ops ts e
    have key : ∀ h ∈ loop.labels, (loop.block h).merge = none ∨ h = 1 := by decide
    have := (key h hh).resolve_left (by rw [hM]; simp)
    subst this; cases e

/-- The theorems above say something of it: two blocks are gone, and the loop is still one. -/
example : ∃ fn', Merges (fun _ => ⟨true, fun _ => none⟩) Reachable loop fn' ∧ Spec.Valid sem2 fn' ∧ Structured fn' ∧
    fn'.labels = [0, 1, 3, 4] ∧
    fn'.block 1 = ⟨[], [.op 10 [], .op 11 [10]], some (.loop 4 3), .cond 11 3 4⟩ ∧
    fn'.block 4 = ⟨[], [.op 13 [11]], none, .multi 0 [13] []⟩ := by
  have h : Merges (fun _ => ⟨true, fun _ => none⟩) Reachable loop (mergeBlocks (mergeBlocks loop 1 2) 4 5) :=
    .one (b := 1) (s := 2) (loop_reach 1 (.inl rfl) _ (.inl rfl)) (by decide)
      (.one (b := 4) (s := 5) (loop_reach 4 (.inr rfl) _ (.inr rfl)) (by decide) .none)
  exact ⟨_, h, valid_kept (fun _ _ h => h) h loop_valid, structured_kept (fun _ _ h => h) h loop_valid loop_structured,
    rfl, rfl, rfl⟩

/-- Three blocks. -/
def three (b0 b1 b2 : Block) : Fn := ⟨0, [0, 1, 2], fun x => if x = 0 then b0 else if x = 1 then b1 else if x = 2 then b2 else emptyBlock⟩

/-- Not merged: a merge block with another; into a merge block when runs must come together again; a continue
target into a merge block; a header into another; a loop header with a switch. -/
example :
    canMerge (three ⟨[], [], some (.selection 1 false), .cond 9 1 1⟩ ⟨[], [], none, .br 2⟩
      ⟨[], [], some (.loop 2 7), .multi 0 [] []⟩) noInfo 1 = none ∧
    canMerge (three ⟨[], [], some (.selection 1 false), .br 1⟩ emptyBlock emptyBlock) noInfo 0 = some 1 ∧
    canMerge (three ⟨[], [], some (.selection 1 false), .br 1⟩ emptyBlock emptyBlock) ⟨true, fun _ => none⟩ 0 = none ∧
    canMerge (three ⟨[], [], some (.loop 1 2), .cond 9 1 1⟩ ⟨[], [], none, .br 2⟩ emptyBlock) noInfo 1 = none ∧
    canMerge (three ⟨[], [], some (.selection 7 false), .br 1⟩ ⟨[], [], some (.selection 8 false), .cond 9 7 8⟩
      emptyBlock) noInfo 0 = none ∧
    canMerge (three ⟨[], [], some (.loop 7 8), .br 1⟩ emptyBlock emptyBlock) noInfo 0 = none := by
  decide

end Verif.BlockMerge
