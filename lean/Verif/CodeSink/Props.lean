import Verif.CodeSink.Small

/-!
# Properties: sinking of loads and access chains (C71)
-/

set_option linter.unusedSimpArgs false
set_option linter.unusedVariables false

namespace Verif.CodeSink.Spec
open Verif.IfConv Verif.IfConv.Spec

variable {V M : Type} {S : Sem V M}

/-- The function stays valid. -/
theorem valid_kept {sync kind} {fn fn' : Fn} (hv : Valid S fn)
    (h : Sinks sync kind (Reachable fn) fn fn') : Valid S fn' := by
  have key : ∀ {live} {g g'}, Sinks sync kind live g g' → Valid S g → (∀ b, live b → Reachable g b) → Valid S g' := by
    intro live g g' h
    induction h with
    | none => exact fun hv _ => hv
    | one hl hs _ ih =>
      intro hv hr
      obtain ⟨t, rfl, hm, _⟩ := sink_moved hv (hr _ hl) hs
      exact ih (hm.valid hv) (fun b hb => move_reachable.2 (hr b hb))
  exact key h hv (fun _ h => h)

/-- Runs are kept, both ways: the same blocks in the same order, the same memory, and the same values of
all ids but those moved. Missing: loads that are not steady, of which `stored_load_moved` shows that it
fails. -/
theorem runs_kept_partial {sync kind} {fn fn' : Fn} (hv : Valid S fn)
    (hst : ∀ d, movable sync (kind d) = true → Steady S d)
    (h : Sinks sync kind (Reachable fn) fn fn') :
    RunsIn S (fun d => movable sync (kind d) = true) fn fn' ∧
    RunsIn S (fun d => movable sync (kind d) = true) fn' fn := by
  have key : ∀ {live} {g g'}, Sinks sync kind live g g' → Valid S g → (∀ b, live b → Reachable g b) →
      (∀ b, (g'.block b).term = (g.block b).term) ∧
      RunsIn S (fun d => movable sync (kind d) = true) g g' ∧
      RunsIn S (fun d => movable sync (kind d) = true) g' g := by
    intro live g g' h
    induction h with
    | none =>
      intro _ _
      exact ⟨fun _ => rfl, fun l c hc => ⟨c, hc, rfl, rfl, fun _ _ => rfl, fun _ _ => rfl⟩,
        fun l c hc => ⟨c, hc, rfl, rfl, fun _ _ => rfl, fun _ _ => rfl⟩⟩
    | @one g g1 g2 bound o d ops hl hs _ ih =>
      intro hv hr
      obtain ⟨t, rfl, hm, hk⟩ := sink_moved hv (hr _ hl) hs
      obtain ⟨F, hF⟩ := hst d hk
      obtain ⟨hT, ih1, ih2⟩ := ih (hm.valid hv) (fun b hb => move_reachable.2 (hr b hb))
      obtain ⟨r1, r2⟩ := hm.runs hv hF
      refine ⟨fun b => (hT b).trans (move_term b), ?_, ?_⟩
      · intro l c hc
        obtain ⟨c1, k1, s⟩ := r1 l c hc
        obtain ⟨c2, k2, e1, e2, e3, e4⟩ := ih1 l c1 k1
        obtain ⟨hp, l', rfl⟩ := hc.path
        refine ⟨c2, k2, e1.trans s.block, e2.trans s.mem, fun x hx => (e3 x hx).trans (s.env x ?_), fun x hx => ?_⟩
        · rintro rfl; exact hx hk
        · refine (e4 x (by rw [s.block, move_term]; exact hx)).trans (s.reads hm hp x hx)
      · intro l c2 hc2
        obtain ⟨c1, k1, e1, e2, e3, e4⟩ := ih2 l c2 hc2
        obtain ⟨c, k, s⟩ := r2 l c1 k1
        obtain ⟨hp, l', rfl⟩ := k.path
        refine ⟨c, k, s.block.symm.trans e1, s.mem.symm.trans e2,
          fun x hx => (s.env x ?_).symm.trans (e3 x hx), fun x hx => ?_⟩
        · rintro rfl; exact hx hk
        · refine (s.reads hm hp x ?_).symm.trans (e4 x hx)
          rw [hT, move_term, ← e1, s.block] at hx
          exact hx
  exact (key h hv (fun _ h => h)).2

/-- Only instructions that may be moved are: all others stay where they are, in order, and so do phis,
merge instructions and terminators. -/
theorem others_stay {sync kind live} {fn fn' : Fn} (h : Sinks sync kind live fn fn') (b : Lab) :
    ((fn'.block b).body.filter fun i => !movable sync (kind (instId i))) =
      ((fn.block b).body.filter fun i => !movable sync (kind (instId i))) ∧
    (fn'.block b).phis = (fn.block b).phis ∧ (fn'.block b).merge = (fn.block b).merge ∧
    (fn'.block b).term = (fn.block b).term := by
  induction h with
  | none => exact ⟨rfl, rfl, rfl, rfl⟩
  | @one g g1 g2 bound o d ops hl hs _ ih =>
    unfold sink at hs
    split at hs
    · rename_i hc
      split at hs
      · rename_i t ht
        cases hs
        obtain ⟨h1, h2, h3, h4⟩ := ih
        refine ⟨h1.trans ?_, h2.trans (move_phis b), h3.trans (move_merge b), h4.trans (move_term b)⟩
        simp only [move]
        split
        · rename_i hb
          obtain ⟨pre, post, _, k2, k3⟩ := List.exists_erase_eq hc.1
          subst hb
          simp only [k3]
          rw [k2]
          rw [List.filter_append, List.filter_append, List.filter_cons_of_neg]
          simp [instId, hc.2]
        · split
          · rw [List.filter_cons_of_neg]
            simp [instId, hc.2]
          · rfl
      · cases hs
    · cases hs

/-- A moved instruction goes to a block that its old block strictly dominates and that dominates all its
uses. -/
theorem moved_between {sync kind bound o d ops} {fn fn' : Fn} (hv : Valid S fn) (hr : Reachable fn o)
    (h : sink fn sync kind bound o d ops = some fn') :
    ∃ t, t ≠ o ∧ Dominates fn o t ∧ .op d ops ∈ (fn'.block t).body ∧ d ∉ defs (fn'.block o) ∧
      (∀ b i, i ∈ (fn.block b).body → d ∈ reads i → Dominates fn t b) ∧
      (∀ b, d ∈ termReads (fn.block b).term → Dominates fn t b) ∧
      (∀ b, ∀ φ ∈ (fn.block b).phis, ∀ p, (d, p) ∈ φ.args → Dominates fn t p) := by
  obtain ⟨t, rfl, hm, _⟩ := sink_moved hv hr h
  refine ⟨t, hm.ne, hm.dom, by rw [hm.body_t]; simp, ?_, hm.useBody, hm.useTerm, hm.usePhi⟩
  intro hd
  rcases (hm.mem_defs hv).1 hd with ⟨_, e⟩ | ⟨e, _⟩
  · exact hm.ne e.symm
  · exact e rfl

/-- The search for a block ends after at most as many rounds as there are blocks. Missing: selections
whose merge block cannot be reached, for which `unreachable_loop_hangs` shows that it fails. -/
theorem search_ends_partial {fn : Fn} (hv : Valid S fn)
    (hm : ∀ b m df, (fn.block b).merge = some (.selection m df) → Reachable fn b → Reachable fn m)
    {o d ops} (hr : Reachable fn o) (hi : .op d ops ∈ (fn.block o).body) (bound : Nat)
    (hb : fn.labels.length ≤ bound) : ∃ t, search fn (useBlocks fn d) o bound o = some t := by
  have hol : o ∈ fn.labels := by
    apply Classical.byContradiction
    intro h
    rw [(hv.listed o h).2.1] at hi
    simp at hi
  refine search_ends_from hv hm bound o [] (Dominates.refl o) ?_ hr (by simp) (by simp) (by simpa using hol)
    (by simpa using hb)
  intro u hu
  exact uses_below hv (op_defs hi) hu

/-! ### Which loads are taken to be of memory that is not written -/

/-- Some user of the pointer, or of a chain from it, is neither a store nor a chain: a load, for example. -/
inductive HasReader : List User → Prop where
  | here {us} : .other ∈ us → HasReader us
  | chain {us vs} : .chain vs ∈ us → HasReader vs → HasReader us

/-- Then a store is never found: the question is whether all users are stores. -/
theorem possible_store_never {us} (h : HasReader us) : possibleStore us = false := by
  have key : ∀ {us : List User} {u}, u ∈ us → userStore u = false → possibleStore us = false := by
    intro us u hu hf
    induction us with
    | nil => simp at hu
    | cons v us ih =>
      unfold possibleStore
      split
      · rename_i hv
        rcases List.mem_cons.1 hu with rfl | hu
        · rw [hf] at hv; cases hv
        · exact ih hu
      · rfl
  induction h with
  | here h => exact key h (by unfold userStore; rfl)
  | chain h _ ih => exact key h (by unfold userStore; exact ih)

/-- So loads of a writable buffer may always be moved, when nothing synchronizes. -/
theorem writable_movable {us} (h : HasReader us) :
    movable false (.load (.variable false true us)) = true := by
  simp [movable, mutableMemory, possible_store_never h]

/-- What is never moved: other opcodes; loads through pointers that do not go back to a variable; loads
of writable variables that are not in the storage class Uniform, or when there is synchronization. -/
theorem never_moved (sync : Bool) (us : List User) :
    movable sync .other = false ∧ movable sync (.load .other) = false ∧
    movable sync (.load (.variable false false us)) = false ∧
    (∀ u, movable true (.load (.variable false u us)) = false) ∧
    (∀ u, movable sync (.load (.variable true u us)) = true) ∧ movable sync .accessChain = true := by
  refine ⟨rfl, rfl, ?_, ?_, ?_, rfl⟩
  · cases sync <;> rfl
  · intro u; cases u <;> rfl
  · intro u; rfl

/-! ### A case that meets the hypotheses -/

/-- An access chain that only one side of a selection uses. Ids: 5 a variable, 30 a condition, 10 the
chain, 40 its use. -/
def oneSide : Fn where
  entry := 0
  labels := [0, 1, 2, 3]
  block
    | 0 => ⟨[], [.op 10 [5]], some (.selection 3 false), .cond 30 1 2⟩
    | 1 => ⟨[], [.op 40 [10]], none, .br 3⟩
    | 2 => ⟨[], [], none, .br 3⟩
    | 3 => ⟨[], [], none, .multi 0 [] []⟩
    | _ => ⟨[], [], none, .multi 0 [] []⟩

def oneSidePaths : List (List Lab) := [[0], [1, 0], [2, 0], [3, 1, 0], [3, 2, 0]]

def oneKind (d : Id) : Kind := if d = 10 then .accessChain else .other

/-- 30 is true; 10 is a chain from its operand, 40 outputs it. -/
def sem1 : Sem Nat (List Nat) where
  start d := if d = 30 ∨ d = 5 then some 1 else none
  mem := []
  act d xs m x m' := if d = 10 then x = xs.sum + 100 ∧ m' = m else x = 0 ∧ m' = xs ++ m
  jump _ _ _ _ := False
  truth v := v != 0

theorem oneSide_valid : Valid sem1 oneSide := by
  refine valid_of (P := oneSidePaths) (start := fun x => x == 30 || x == 5) (by decide) ?_ ?_ (by decide)
  · intro x hx; simp [sem1] at hx ⊢; exact fun h => hx.resolve_left h
  · intro b hb
    simp only [oneSide]
    split <;> first | rfl | exact absurd (by decide) hb

theorem oneSide_sink : sink oneSide false oneKind 4 0 10 [5] = some (move oneSide 0 1 (.op 10 [5])) := by
  have : newBlock oneSide 4 10 0 = some 1 := by decide
  unfold sink
  rw [if_pos ⟨by decide, by decide⟩, this]

/-- The hypotheses of the theorems above hold for it; the chain goes to the side that uses it. -/
example : Valid sem1 oneSide ∧ (∀ d, movable false (oneKind d) = true → Steady sem1 d) ∧
    Sinks false oneKind (Reachable oneSide) oneSide (move oneSide 0 1 (.op 10 [5])) ∧
    (∀ b m df, (oneSide.block b).merge = some (.selection m df) → Reachable oneSide b → Reachable oneSide m) := by
  refine ⟨oneSide_valid, ?_, .one (bound := 4) ⟨[], .entry⟩ oneSide_sink .none, ?_⟩
  · intro d hd
    unfold oneKind at hd
    split at hd
    · rename_i e; subst e; exact ⟨fun xs => xs.sum + 100, fun xs m x m' => by simp [sem1]⟩
    · cases hd
  · intro b m df hm _
    simp only [oneSide] at hm
    split at hm <;> simp at hm
    rw [← hm.1]
    exact ⟨[1, 0], isPath_path (by decide)⟩

/-! ### A load that is moved past a store -/

/-- Load 10 from 5, store 11 to 5; the next block outputs 10. -/
def loadStore : Fn where
  entry := 0
  labels := [0, 1]
  block
    | 0 => ⟨[], [.op 10 [5], .op 11 [5]], none, .br 1⟩
    | 1 => ⟨[], [.op 40 [10]], none, .multi 0 [] []⟩
    | _ => ⟨[], [], none, .multi 0 [] []⟩

/-- 5 is a writable variable in the storage class Uniform; its users are the store and the load. -/
def loadKind (d : Id) : Kind :=
  if d = 10 then .load (.variable false true [.store, .other]) else .other

/-- Memory: what is stored, and what has been output. -/
def sem2 : Sem Nat (Nat × List Nat) where
  start d := if d = 5 then some 0 else none
  mem := (0, [])
  act d xs m x m' :=
    if d = 10 then x = m.1 ∧ m' = m
    else if d = 11 then x = 0 ∧ m' = (7, m.2)
    else x = 0 ∧ m' = (m.1, xs ++ m.2)
  jump _ _ _ _ := False
  truth v := v != 0

theorem loadStore_valid : Valid sem2 loadStore := by
  refine valid_of (P := [[0], [1, 0]]) (start := fun x => x == 5) (by decide) ?_ ?_ (by decide)
  · intro x hx; simp [sem2] at hx ⊢; exact hx
  · intro b hb
    simp only [loadStore]
    split <;> first | rfl | exact absurd (by decide) hb

theorem loadStore_sink :
    sink loadStore false loadKind 2 0 10 [5] = some (move loadStore 0 1 (.op 10 [5])) := by
  have : newBlock loadStore 2 10 0 = some 1 := by decide
  unfold sink
  rw [if_pos ⟨by decide, by simp [loadKind, movable, mutableMemory, possibleStore, userStore]⟩, this]

/-- The load is moved past the store: the function put out 0, and puts out 7 now. -/
theorem stored_load_moved : ∃ (fn fn' : Fn) (kind : Id → Kind), Valid sem2 fn ∧ movable false (kind 10) = true ∧
    Sinks false kind (Reachable fn) fn fn' ∧
    (∃ c, Reach sem2 fn' [1, 0] c ∧ c.mem.2 = [7]) ∧ ∀ c, Reach sem2 fn [1, 0] c → c.mem.2 = [0] := by
  refine ⟨loadStore, move loadStore 0 1 (.op 10 [5]), loadKind, loadStore_valid, ?_,
    .one (bound := 2) ⟨[], .entry⟩ loadStore_sink .none, ?_, ?_⟩
  · simp [loadKind, movable, mutableMemory, possibleStore, userStore]
  · refine ⟨⟨1, define (define (define sem2.start 11 0) 10 7) 40 0, (7, [7])⟩, ?_, rfl⟩
    refine .step (c := ⟨0, define sem2.start 11 0, (7, [])⟩) (c' := ⟨1, _, _⟩) (.start (fn := move loadStore 0 1 _) ?_) ?_
    · refine ⟨rfl, ?_⟩
      show Exec sem2 [.op 11 [5]] _ _ _ _
      exact .op (xs := [0]) rfl (by simp [sem2]) .nil
    · refine .mk .br (by intro φ hφ; cases hφ) ?_
      show Exec sem2 [.op 10 [5], .op 40 [10]] (define sem2.start 11 0) _ _ _
      exact .op (xs := [0]) (x := 7) (m1 := (7, [])) rfl (by simp [sem2])
        (.op (xs := [7]) (x := 0) (m1 := (7, [7])) rfl (by simp [sem2]) .nil)
  · intro c hc
    have one : ∀ xs : List Nat, [some 0] = List.map some xs → xs = [0] := by
      intro xs h
      match xs, h with
      | [v], h => simpa using h.symm
    generalize e : [1, 0] = l at hc
    cases hc with
    | start hb => cases e
    | step hr hs =>
      simp only [List.cons.injEq] at e
      obtain ⟨e1, e2⟩ := e
      cases hr with
      | start hb =>
        obtain ⟨hb1, hb2⟩ := hb
        replace hb2 : Exec sem2 [.op 10 [5], .op 11 [5]] sem2.start (0, []) _ _ := hb2
        cases hs with
        | @mk _ e0 _ _ _ _ hg hφ hx =>
          simp only at e1 hb1 hb2
          subst e1; subst hb1
          replace hx : Exec sem2 [.op 40 [10]] _ _ _ _ := hx
          generalize hE : phiEnv _ _ _ = E at hx
          have hE' : E 10 = e0 10 := by rw [← hE]; exact phiEnv_same 10 (by decide)
          cases hb2 with
          | op r1 a1 hb2 =>
            cases hb2 with
            | op r2 a2 hb2 =>
              cases hb2
              cases hx with
              | op r3 a3 hx =>
                cases hx
                simp [sem2] at a1 a2 a3
                obtain ⟨rfl, rfl⟩ := a1
                obtain ⟨rfl, rfl⟩ := a2
                obtain ⟨rfl, rfl⟩ := a3
                simp [Reads, hE', define] at r3
                simp only [List.append_nil]
                exact one _ r3
      | step hr' _ =>
        simp only [List.cons.injEq] at e2
        obtain ⟨_, e2⟩ := e2
        rw [← e2] at hr'
        cases hr'

/-! ### A search that does not end -/

/-- A load without uses; both sides of the selection return; its merge block, never reached, is a loop. -/
def hang : Fn where
  entry := 0
  labels := [0, 1, 2, 3, 4]
  block
    | 0 => ⟨[], [.op 10 [5]], some (.selection 3 false), .cond 30 1 2⟩
    | 1 => ⟨[], [], none, .multi 0 [] []⟩
    | 2 => ⟨[], [], none, .multi 0 [] []⟩
    | 3 => ⟨[], [], some (.loop 4 3), .br 3⟩
    | 4 => ⟨[], [], none, .multi 0 [] []⟩
    | _ => ⟨[], [], none, .multi 0 [] []⟩

theorem hang_valid : Valid sem1 hang := by
  refine valid_of (P := [[0], [1, 0], [2, 0]]) (start := fun x => x == 30 || x == 5) (by decide) ?_ ?_ (by decide)
  · intro x hx; simp [sem1] at hx ⊢; exact fun h => hx.resolve_left h
  · intro b hb
    simp only [hang]
    split <;> first | rfl | exact absurd (by decide) hb

/-- The search for a block never ends. -/
theorem unreachable_loop_hangs : ∃ (fn : Fn) (d : Id) (ops : List Id), Valid sem1 fn ∧ Reachable fn 0 ∧
    .op d ops ∈ (fn.block 0).body ∧ ∀ bound, search fn (useBlocks fn d) 0 bound 0 = none := by
  refine ⟨hang, 10, [5], hang_valid, ⟨[], .entry⟩, by decide, ?_⟩
  have h3 : ∀ n, search hang (useBlocks hang 10) 0 n 3 = none := by
    intro n
    induction n with
    | zero => rfl
    | succ n ih =>
      unfold search
      have : next hang (useBlocks hang 10) 0 3 = some (.go 3) := by decide
      rw [this]; exact ih
  intro bound
  cases bound with
  | zero => rfl
  | succ n =>
    unfold search
    have : next hang (useBlocks hang 10) 0 0 = some (.go 3) := by decide
    rw [this]; exact h3 n

end Verif.CodeSink.Spec
