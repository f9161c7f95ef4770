import Verif.Licm.Small

/-!
# Properties: hoisting out of loops (C72)
-/

set_option linter.unusedSimpArgs false
set_option linter.unusedVariables false

namespace Verif.Licm.Spec
open Verif.IfConv Verif.CodeSink Verif.CodeSink.Spec
open Verif.IfConv.Spec hiding Valid Right

variable {V M : Type} {S : Sem V M}

/-- The function stays valid, and what the analysis says stays right. -/
theorem valid_kept {A kind} {fn fn' : Fn} (hv : Valid S fn) (hA : Right fn A) (hC : Closed fn)
    (h : Hoists A kind fn fn') : Valid S fn' ∧ Right fn' A ∧ Closed fn' := by
  induction h with
  | none => exact ⟨hv, hA, hC⟩
  | one hs _ ih =>
    obtain ⟨p, rfl, hm, _⟩ := hoist_lifted hv hA hC hs
    exact ih (hm.valid hv) (lift_right hA) (lift_closed hC)

/-- Runs are kept, both ways: the same blocks in the same order, the same memory, and the same values of all
ids but those hoisted. Missing: instructions that may be hoisted and have no outcome for some operands, of
which `guarded_division_hoisted` shows that it fails. -/
theorem runs_kept_partial {A kind} {fn fn' : Fn} (hv : Valid S fn) (hA : Right fn A) (hC : Closed fn)
    (hst : ∀ d, (kind d).mayHoist = true → Steady S d) (h : Hoists A kind fn fn') :
    RunsIn S (fun d => (kind d).mayHoist = true) fn fn' ∧
    RunsIn S (fun d => (kind d).mayHoist = true) fn' fn := by
  have key : (∀ b, (fn'.block b).term = (fn.block b).term) ∧
      RunsIn S (fun d => (kind d).mayHoist = true) fn fn' ∧
      RunsIn S (fun d => (kind d).mayHoist = true) fn' fn := by
    induction h with
    | none =>
      exact ⟨fun _ => rfl, fun l c hc => ⟨c, hc, rfl, rfl, fun _ _ => rfl, fun _ _ => rfl⟩,
        fun l c hc => ⟨c, hc, rfl, rfl, fun _ _ => rfl, fun _ _ => rfl⟩⟩
    | @one g g1 g2 h o d ops hs _ ih =>
      obtain ⟨p, rfl, hm, hk⟩ := hoist_lifted hv hA hC hs
      obtain ⟨F, hF⟩ := hst d hk
      obtain ⟨hT, ih1, ih2⟩ := ih (hm.valid hv) (lift_right hA) (lift_closed hC)
      have sh := hm.shift hv
      obtain ⟨r1, r2⟩ := sh.runs (hm.valid hv) hF
      refine ⟨fun b => (hT b).trans (lift_term b), ?_, ?_⟩
      · intro l c hc
        obtain ⟨c1, k1, s⟩ := r2 l c hc
        obtain ⟨c2, k2, e1, e2, e3, e4⟩ := ih1 l c1 k1
        obtain ⟨hp, l', rfl⟩ := k1.path
        refine ⟨c2, k2, e1.trans s.block.symm, e2.trans s.mem.symm,
          fun x hx => (e3 x hx).trans (s.env x ?_).symm, fun x hx => ?_⟩
        · rintro rfl; exact hx hk
        · have hx' : x ∈ termReads ((lift g o p (.op d ops)).block c1.block).term := by
            rw [← s.block, lift_term]; exact hx
          exact (e4 x hx').trans (sh.sreads s hp x hx').symm
      · intro l c2 hc2
        obtain ⟨c1, k1, e1, e2, e3, e4⟩ := ih2 l c2 hc2
        obtain ⟨c, k, s⟩ := r1 l c1 k1
        obtain ⟨hp, l', rfl⟩ := k1.path
        refine ⟨c, k, s.block.trans e1, s.mem.trans e2,
          fun x hx => (s.env x ?_).trans (e3 x hx), fun x hx => ?_⟩
        · rintro rfl; exact hx hk
        · refine (sh.sreads s hp x ?_).trans (e4 x hx)
          rw [hT, ← e1] at hx
          exact hx
  exact key.2

/-- Only instructions that may be hoisted are: all others stay where they are, in order, and so do phis, merge
instructions and terminators. -/
theorem others_stay {A kind} {fn fn' : Fn} (h : Hoists A kind fn fn') (b : Lab) :
    ((fn'.block b).body.filter fun i => !(kind (instId i)).mayHoist) =
      ((fn.block b).body.filter fun i => !(kind (instId i)).mayHoist) ∧
    (fn'.block b).phis = (fn.block b).phis ∧ (fn'.block b).merge = (fn.block b).merge ∧
    (fn'.block b).term = (fn.block b).term := by
  induction h with
  | none => exact ⟨rfl, rfl, rfl, rfl⟩
  | @one g g1 g2 h o d ops hs _ ih =>
    unfold hoist at hs
    split at hs
    · split at hs
      · rename_i hc
        split at hs
        · rename_i p hp
          cases hs
          have hk : (kind d).mayHoist = true := by
            have := hc.2.2
            simp only [shouldHoist, Bool.and_eq_true] at this
            exact this.1
          obtain ⟨h1, h2, h3, h4⟩ := ih
          refine ⟨h1.trans ?_, h2.trans (lift_phis b), h3.trans (lift_merge b), h4.trans (lift_term b)⟩
          simp only [lift]
          split
          · rename_i hb
            obtain ⟨pre, post, _, k2, k3⟩ := List.exists_erase_eq hc.1
            subst hb
            simp only [k3]
            rw [k2]
            rw [List.filter_append, List.filter_append, List.filter_cons_of_neg]
            simp [instId, hk]
          · split
            · rw [List.filter_append, List.filter_cons_of_neg]
              · simp
              · simp [instId, hk]
            · rfl
        · cases hs
      · cases hs
    · cases hs

/-- A hoisted instruction was in a loop; it goes to the end of a block outside the loop that strictly dominates
the header, and whose only successor is the header. -/
theorem hoisted_before {A kind h o d ops} {fn fn' : Fn} (hv : Valid S fn) (hA : Right fn A) (hC : Closed fn)
    (hh : hoist fn A kind h o d ops = some fn') :
    ∃ p m c, (fn.block h).merge = some (.loop m c) ∧ Dominates fn h o ∧ ¬ Dominates fn m o ∧
      p ≠ h ∧ Dominates fn p h ∧ ¬ Dominates fn h p ∧ h ∈ fn.succs p ∧ (∀ b ∈ fn.succs p, b = h) ∧
      (fn'.block p).body = (fn.block p).body ++ [.op d ops] ∧ d ∉ defs (fn'.block o) := by
  obtain ⟨p, rfl, hm, _⟩ := hoist_lifted hv hA hC hh
  have hh' := hh
  unfold hoist at hh
  split at hh
  · rename_i m c hmg
    split at hh
    · rename_i hc
      split at hh
      · rename_i p' hp
        have g := pre_of hv hA hC hmg hp
        have ho := (in_iff hA).1 hc.2.1
        have hbody : (lift fn o p' (.op d ops)).block p' = (lift fn o p (.op d ops)).block p' := by
          rw [Option.some.inj hh]
        have hne : p' ≠ o := by rintro rfl; exact g.above ho.2.1
        have hd : d ∉ defs ((lift fn o p (.op d ops)).block o) := by
          intro hd
          rcases (hm.mem_defs hv).1 hd with ⟨_, e⟩ | ⟨e, _⟩
          · exact hm.ne e.symm
          · exact e rfl
        refine ⟨p', m, c, hmg, ho.2.1, ho.2.2, ?_, g.dom_h hv, g.above, g.edge, g.only, ?_, hd⟩
        · rintro rfl; exact g.above (Dominates.refl _)
        · rw [← hbody]; simp [lift, hne]
      · cases hh
    · cases hh
  · cases hh

/-- Operands of a hoisted instruction have no definition in the loop. -/
theorem operands_outside {A kind h o d ops} {fn fn' : Fn} (hv : Valid S fn) (hA : Right fn A)
    (hh : hoist fn A kind h o d ops = some fn') {m c} (hm : (fn.block h).merge = some (.loop m c)) :
    ∀ x ∈ ops, ∀ b, Reachable fn b → Dominates fn h b → ¬ Dominates fn m b → x ∉ defs (fn.block b) := by
  intro x hx b hr h1 h2 hb
  unfold hoist at hh
  rw [hm] at hh
  simp only at hh
  split at hh
  · rename_i hc
    have hsh := hc.2.2
    simp only [shouldHoist, Bool.and_eq_true] at hsh
    have hb' : b ∈ fn.labels := by
      apply Classical.byContradiction
      intro hl
      obtain ⟨e1, e2, _⟩ := hv.listed b hl
      simp [defs, e1, e2] at hb
    have := List.all_eq_true.1 (List.all_eq_true.1 hsh.2 x hx) b hb'
    rw [(in_iff hA).2 ⟨hr, h1, h2⟩, blockDefs_eq] at this
    simp [hb] at this
  · cases hh

/-- What is never hoisted: opcodes that are not known to be safe, and loads not known to be of memory that is
only read. -/
theorem never_hoisted {A kind h o d ops} {fn : Fn}
    (hk : (kind d).safe = false ∨ ((kind d).load = true ∧ (kind d).readOnly = false)) :
    hoist fn A kind h o d ops = none := by
  have hf : (kind d).mayHoist = false := by
    rcases hk with h | ⟨h1, h2⟩
    · simp [Kind.mayHoist, h]
    · simp [Kind.mayHoist, h1, h2]
  unfold hoist
  split
  · rw [if_neg]
    simp [shouldHoist, hf]
  · rfl

/-- What is hoisted: a safe instruction of a loop with a preheader whose operands are all from outside. -/
theorem hoisted_if {A kind h o d ops m c p} {fn : Fn} (hA : Right fn A)
    (hm : (fn.block h).merge = some (.loop m c)) (hi : .op d ops ∈ (fn.block o).body)
    (ho : Reachable fn o ∧ Dominates fn h o ∧ ¬ Dominates fn m o)
    (hk : (kind d).safe = true ∧ ((kind d).load = true → (kind d).readOnly = true))
    (hops : ∀ x ∈ ops, ∀ b, Reachable fn b → Dominates fn h b → ¬ Dominates fn m b → x ∉ defs (fn.block b))
    (hp : p ∈ fn.preds h) (hpr : Reachable fn p) (hpd : ¬ Dominates fn h p)
    (hpu : ∀ q ∈ fn.preds h, Reachable fn q → ¬ Dominates fn h q → q = p)
    (hps : ∀ b ∈ fn.succs p, b = h) :
    hoist fn A kind h o d ops = some (lift fn o p (.op d ops)) := by
  have find : ∀ ps acc, (∀ q ∈ ps, Reachable fn q → ¬ Dominates fn h q → q = p) → (acc = none ∨ acc = some p) →
      (acc = some p ∨ p ∈ ps) → findPred A h ps acc = some (some p) := by
    intro ps
    induction ps with
    | nil =>
      intro acc _ _ h3
      rcases h3 with rfl | h3
      · rfl
      · simp at h3
    | cons a ps ih =>
      intro acc h1 h2 h3
      have hcond : (A.live a && !A.dom h a) = true ↔ Reachable fn a ∧ ¬ Dominates fn h a := by
        rw [Bool.and_eq_true, hA.live a, Bool.not_eq_true']
        constructor
        · rintro ⟨hr, hd⟩
          exact ⟨hr, fun h => by rw [(hA.dom _ _ hr).2 h] at hd; cases hd⟩
        · rintro ⟨hr, hd⟩
          refine ⟨hr, ?_⟩
          cases e : A.dom h a with
          | false => rfl
          | true => exact absurd ((hA.dom _ _ hr).1 e) hd
      unfold findPred
      by_cases hc : (A.live a && !A.dom h a) = true
      · rw [if_pos hc]
        obtain ⟨hr, hd⟩ := hcond.1 hc
        have := h1 a (by simp) hr hd
        subst this
        have ih' := ih (some a) (fun q hq => h1 q (List.mem_cons_of_mem _ hq)) (.inr rfl) (.inl rfl)
        rcases h2 with rfl | rfl
        · exact ih'
        · simp only [ne_eq, not_true_eq_false, if_false]; exact ih'
      · rw [if_neg hc]
        refine ih acc (fun q hq => h1 q (List.mem_cons_of_mem _ hq)) h2 ?_
        rcases h3 with h3 | h3
        · exact .inl h3
        · rcases List.mem_cons.1 h3 with rfl | h3
          · exact absurd (hcond.2 ⟨hpr, hpd⟩) hc
          · exact .inr h3
  have hpre : preheader fn A h = some p := by
    unfold preheader
    rw [find _ none hpu (.inl rfl) (.inr hp)]
    simp only
    rw [if_pos]
    simpa using hps
  have hsh : shouldHoist fn A h m (kind d) ops = true := by
    simp only [shouldHoist, Kind.mayHoist, outside, Bool.and_eq_true, Bool.or_eq_true, List.all_eq_true,
      Bool.not_eq_true']
    refine ⟨⟨hk.1, ?_⟩, ?_⟩
    · cases e : (kind d).load with
      | false => exact .inl rfl
      | true => exact .inr (hk.2 e)
    · intro x hx b _
      cases e : inLoop A h m b with
      | false => rfl
      | true =>
        obtain ⟨h1, h2, h3⟩ := (in_iff hA).1 e
        have := hops x hx b h1 h2 h3
        rw [blockDefs_eq]
        simp [this]
  unfold hoist
  rw [hm]
  simp only
  rw [if_pos ⟨hi, (in_iff hA).2 ho, hsh⟩, hpre]

/-! ### A case that meets the hypotheses, and one that is miscompiled -/

/-- `do { if (c) x = n / k; } while (t)`. Ids: 6, 7 the operands; 31 the condition of the selection; 32 of the
loop; 10 the instruction; 40 its use. -/
def guarded : Fn where
  entry := 0
  labels := [0, 1, 2, 3, 4, 5]
  block
    | 0 => ⟨[], [], none, .br 1⟩
    | 1 => ⟨[], [], some (.loop 5 4), .br 2⟩
    | 2 => ⟨[], [], some (.selection 4 false), .cond 31 3 4⟩
    | 3 => ⟨[], [.op 10 [6, 7], .op 40 [10]], none, .br 4⟩
    | 4 => ⟨[], [], none, .cond 32 1 5⟩
    | 5 => ⟨[], [], none, .multi 0 [] []⟩
    | _ => ⟨[], [], none, .multi 0 [] []⟩

def guardedTable : Table :=
  [(0, [0]), (1, [1, 0]), (2, [2, 1, 0]), (3, [3, 2, 1, 0]), (4, [4, 2, 1, 0]), (5, [5, 4, 2, 1, 0])]

def guardedKind (d : Id) : Kind := ⟨d == 10, false, false⟩

/-- A division: it has no outcome, the program is undefined, when the divisor is 0. 7 is `k`, 31 says that it
is not 0, 32 is false. -/
def semDiv (k : Nat) : Sem Nat (List Nat) where
  start d := if d = 6 then some 42 else if d = 7 then some k else if d = 31 then some (if k = 0 then 0 else 1)
    else if d = 32 then some 0 else none
  mem := []
  act d xs m x m' := if d = 10 then (∃ n k, xs = [n, k] ∧ k ≠ 0 ∧ x = n / k) ∧ m' = m else x = 0 ∧ m' = xs ++ m
  jump _ _ _ _ := False
  truth v := v != 0

/-- An addition in its place. -/
def semAdd : Sem Nat (List Nat) where
  start := (semDiv 0).start
  mem := []
  act d xs m x m' := if d = 10 then x = xs.sum ∧ m' = m else x = 0 ∧ m' = xs ++ m
  jump _ _ _ _ := False
  truth v := v != 0

theorem guarded_table : tableB guarded guardedTable = true := by decide

theorem guarded_right : Right guarded (info guardedTable) :=
  table_right (W := [[0], [1, 0], [2, 1, 0], [3, 2, 1, 0], [4, 2, 1, 0], [5, 4, 2, 1, 0]]) guarded_table (by decide)

theorem guarded_listed : ∀ b, b ∉ guarded.labels → guarded.block b = emptyBlock := by
  intro b hb
  simp only [guarded]
  split <;> first | rfl | exact absurd (by decide) hb

theorem guarded_closed : Closed guarded := closed_of guarded_right guarded_listed (by decide)

theorem guarded_valid {S : Sem Nat (List Nat)} (hS : ∀ x, x = 6 ∨ x = 7 ∨ x = 31 ∨ x = 32 → S.start x ≠ none) :
    Valid S guarded := by
  refine valid_by (dom := (info guardedTable).dom) (start := fun x => x == 6 || (x == 7 || (x == 31 || x == 32)))
    (table_dom guarded_table) ?_ guarded_listed (by decide)
  intro x hx
  simp only [Bool.or_eq_true, beq_iff_eq] at hx
  exact hS x hx

theorem start_some (k : Nat) : ∀ x, x = 6 ∨ x = 7 ∨ x = 31 ∨ x = 32 → (semDiv k).start x ≠ none := by
  rintro x (rfl | rfl | rfl | rfl) <;> simp [semDiv]

theorem guarded_hoist : hoist guarded (info guardedTable) guardedKind 1 3 10 [6, 7] =
    some (lift guarded 3 0 (.op 10 [6, 7])) := by
  have h1 : preheader guarded (info guardedTable) 1 = some 0 := by decide
  unfold hoist
  show (if _ then (match preheader guarded (info guardedTable) 1 with
      | some p => some (lift guarded 3 p (.op 10 [6, 7])) | none => none) else none) = _
  rw [if_pos ⟨by decide, by decide, by decide⟩, h1]

/-- The hypotheses of the theorems above hold for it. -/
example : Valid semAdd guarded ∧ Right guarded (info guardedTable) ∧ Closed guarded ∧
    (∀ d, (guardedKind d).mayHoist = true → Steady semAdd d) ∧
    Hoists (info guardedTable) guardedKind guarded (lift guarded 3 0 (.op 10 [6, 7])) ∧
    10 ∈ defs ((lift guarded 3 0 (.op 10 [6, 7])).block 0) := by
  refine ⟨guarded_valid (start_some 0), guarded_right, guarded_closed, ?_, .one guarded_hoist .none, by decide⟩
  intro d hd
  simp [guardedKind, Kind.mayHoist] at hd
  subst hd
  exact ⟨List.sum, fun xs m x m' => by simp [semAdd]⟩

/-- And those of `hoisted_if`. -/
example : (guarded.block 1).merge = some (.loop 5 4) ∧ .op 10 [6, 7] ∈ (guarded.block 3).body ∧
    (Reachable guarded 3 ∧ Dominates guarded 1 3 ∧ ¬ Dominates guarded 5 3) ∧
    (∀ x ∈ [6, 7], ∀ b, Reachable guarded b → Dominates guarded 1 b → ¬ Dominates guarded 5 b →
      x ∉ defs (guarded.block b)) ∧
    0 ∈ guarded.preds 1 ∧ Reachable guarded 0 ∧ ¬ Dominates guarded 1 0 ∧
    (∀ q ∈ guarded.preds 1, Reachable guarded q → ¬ Dominates guarded 1 q → q = 0) ∧
    (∀ b ∈ guarded.succs 0, b = 1) := by
  have hA := guarded_right
  have r : ∀ b, (info guardedTable).live b = true → Reachable guarded b := fun b => (hA.live b).1
  have nd : ∀ a b, (info guardedTable).live b = true → (info guardedTable).dom a b = false → ¬ Dominates guarded a b := by
    intro a b h1 h2 h
    rw [(hA.dom a b (r b h1)).2 h] at h2; cases h2
  refine ⟨rfl, by decide, ⟨r 3 (by decide), table_dom guarded_table 1 3 (by decide), nd 5 3 (by decide) (by decide)⟩,
    ?_, by decide, r 0 (by decide), nd 1 0 (by decide) (by decide), ?_, by decide⟩
  · intro x hx b _ _ _
    by_cases hb : b ∈ guarded.labels
    · have : ∀ b ∈ guarded.labels, ∀ x ∈ [6, 7], x ∉ defs (guarded.block b) := by decide
      exact this b hb x hx
    · rw [guarded_listed b hb]; simp [defs, emptyBlock]
  · intro q hq _ hd
    have : ∀ q ∈ guarded.preds 1, q = 0 ∨ q = 4 := by decide
    rcases this q hq with e | rfl
    · exact e
    · exact absurd (table_dom guarded_table 1 4 (by decide)) hd

/-- A division that is only done when the divisor is not 0 is hoisted above the test: the function had a run
to its end, and does not even start now. -/
theorem guarded_division_hoisted : ∃ (fn fn' : Fn) (A : Info) (kind : Id → Kind) (S : Sem Nat (List Nat)),
    Valid S fn ∧ Right fn A ∧ Closed fn ∧ Hoists A kind fn fn' ∧
    (∃ c, Reach S fn [5, 4, 2, 1, 0] c) ∧ ∀ l c, ¬ Reach S fn' l c := by
  refine ⟨guarded, lift guarded 3 0 (.op 10 [6, 7]), info guardedTable, guardedKind, semDiv 0,
    guarded_valid (start_some 0), guarded_right, guarded_closed, .one guarded_hoist .none, ?_, ?_⟩
  · refine ⟨⟨5, (semDiv 0).start, []⟩, ?_⟩
    refine .step (c := ⟨4, (semDiv 0).start, []⟩) (c' := ⟨5, _, _⟩) ?_ (.mk (.cond (v := 0) rfl) (by intro φ hφ; cases hφ) .nil)
    refine .step (c := ⟨2, (semDiv 0).start, []⟩) (c' := ⟨4, _, _⟩) ?_ (.mk (.cond (v := 0) rfl) (by intro φ hφ; cases hφ) .nil)
    refine .step (c := ⟨1, (semDiv 0).start, []⟩) (c' := ⟨2, _, _⟩) ?_ (.mk .br (by intro φ hφ; cases hφ) .nil)
    refine .step (c := ⟨0, (semDiv 0).start, []⟩) (c' := ⟨1, _, _⟩) ?_ (.mk .br (by intro φ hφ; cases hφ) .nil)
    exact .start (fn := guarded) ⟨rfl, .nil⟩
  · have none : ∀ c, ¬ Begins (semDiv 0) (lift guarded 3 0 (.op 10 [6, 7])) c := by
      intro c hb
      obtain ⟨_, hb⟩ := hb
      replace hb : Exec (semDiv 0) [.op 10 [6, 7]] (semDiv 0).start [] _ _ := hb
      cases hb with
      | op r a _ =>
        simp only [semDiv, if_true] at a
        obtain ⟨⟨n, k, rfl, hk, _⟩, _⟩ := a
        simp [Reads, semDiv] at r
        exact hk r.2.symm
    intro l c hc
    induction hc with
    | start hb => exact none _ hb
    | step _ _ ih => exact ih

end Verif.Licm.Spec
