import Verif.DeadBranch.Small

/-!
# Properties: elimination of dead branches (C74)

`eliminate fn A` is the function after the pass.
-/

set_option linter.unusedSimpArgs false
set_option linter.unusedVariables false

namespace Verif.DeadBranch
open Verif.IfConv Verif.CodeSink Verif.DeadBranch.Spec
open Verif.BlockMerge (mergeTarget subBlock)
open Verif.BlockMerge.Spec hiding Same
open Verif.CodeSink.Spec hiding Valid
open Verif.IfConv.Spec hiding Valid Right

variable {V M : Type} {S : Sem V M} {num : V → Nat} {fn : Fn} {A : Info}

theorem result_closed (hv : Valid S fn) : Closed (live fn A) (eliminate fn A) := erase_closed (fixed_closed hv)

theorem result_trim (hv : Valid S fn) :
    trim (live fn A) (eliminate fn A) = trim (live fn A) (fixPhis A (live fn A) (simplified fn A)) := trim_erase

theorem result_succs (hv : Valid S fn) {b} (h : b ∈ live fn A) : (eliminate fn A).succs b = next fn A b := by
  unfold eliminate
  rw [erase_succs h, (inv_fixed hv).succs, simp_succs, if_pos h]

theorem live_reachable (hv : Valid S fn) (b : Lab) : Reachable (eliminate fn A) b ↔ b ∈ live fn A := by
  have hc := result_closed (A := A) hv
  constructor
  · rintro ⟨l, hp⟩; exact hc.on hp b (by simp)
  · intro hb
    have := (inv_fixed (A := A) hv).reach b hb
    rw [← result_trim hv] at this
    exact hc.reachable.1 this

/-- **The pass keeps all runs.** Executions of a valid function before and after go through the same blocks in the
same order, with the same memory (which stands for all that can be observed), the same values of all ids but phis
that were removed, and return the same. -/
theorem runs_kept (hv : Valid S fn) (hm : Means S num fn A) : RunsKept S fn (eliminate fn A) := by
  have hi := inv_fixed (A := A) hv
  have hc := result_closed (A := A) hv
  have hcs := simp_closed (A := A) hv.toBase
  have hgone : ∀ x, (phiIds (trim (live fn A) (simplified fn A)) x ∧
      ¬ phiIds (trim (live fn A) (eliminate fn A)) x) → Gone fn (eliminate fn A) x := by
    rintro x ⟨⟨b, h1⟩, h2⟩
    rw [trim_ids] at h1
    split at h1
    · rw [simp_phis] at h1
      refine ⟨⟨b, h1⟩, fun b' h => h2 ((erase_ids x).2 ⟨b', h⟩)⟩
    · cases h1
  have hsame : ∀ {l} {c c' : Config V M}, Reach S fn l c →
      Twin S (fun x => phiIds (trim (live fn A) (simplified fn A)) x ∧ ¬ phiIds (trim (live fn A) (eliminate fn A)) x)
        (trim (live fn A) (simplified fn A)) (trim (live fn A) (eliminate fn A)) c c' →
      Same S fn (eliminate fn A) c c' := by
    intro l c c' hr ht
    have hl := ((hm.runs hv.toBase (l := l) (c := c)).1 hr).2
    have hl' : c'.block ∈ live fn A := by rw [ht.block]; exact hl
    refine ⟨ht.block, ht.mem, fun y => ?_, fun x hx => ht.env x (fun h => hx (hgone x h)), fun hs => ?_⟩
    · have := ht.goes y
      rw [trim_block hl, trim_block hl'] at this
      simp only [simp_term hl] at this
      exact this.trans (hm.goes hv.toBase hr y)
    · have := ht.reads
      rw [trim_block hl, trim_block hl'] at this
      simp only [simp_term hl] at this
      have e : newTerm fn A c.block = (fn.block c.block).term := by
        unfold newTerm
        cases ht : target fn A c.block with
        | none => rfl
        | some t => have := target_succ ht; rw [hs] at this; cases this
      rw [e] at this
      exact this
  have hr := hi.runs
  rw [← result_trim hv] at hr
  constructor
  · intro l c h
    obtain ⟨c', h1, h2⟩ := hr.forth l c (hcs.runs.1.2 ((hm.runs hv.toBase).1 h).1)
    exact ⟨c', hc.runs.1.1 h1, hsame h h2⟩
  · intro l c' h
    obtain ⟨c, h1, h2⟩ := hr.back l c' (hc.runs.1.2 h)
    have h3 := ((hm.runs hv.toBase).2 (hcs.runs.1.1 h1)).1
    exact ⟨c, h3, hsame h3 h2⟩

/-- Every run of the function before the pass only visits blocks that are reachable afterwards. -/
theorem visited_kept (hv : Valid S fn) (hm : Means S num fn A) {l} {c : Config V M} (h : Reach S fn l c) :
    ∀ b ∈ l, Reachable (eliminate fn A) b ∧ b ∈ (eliminate fn A).labels := by
  intro b hb
  have hr := ((hm.runs hv.toBase).1 h).1
  have hl := (simp_closed (A := A) hv.toBase).on hr.path.1 b hb
  refine ⟨(live_reachable hv b).2 hl, ?_⟩
  refine List.mem_filter.2 ⟨?_, by simp [hl]⟩
  rw [(inv_fixed hv).labels]
  exact live_listed hv hl

theorem deadCont_fixed (hv : Valid S fn) (x : Lab) :
    deadCont (fixPhis A (live fn A) (simplified fn A)) (live fn A) x = deadCont (simplified fn A) (live fn A) x :=
  deadCont_congr (inv_fixed hv).labels (inv_fixed hv).merge x

theorem result_shell (hv : Valid S fn) (hlo : Loops fn) :
    Shell (live fn A) (simplified fn A) (plain (eliminate fn A)) := by
  have hu : Uniq (simplified fn A) :=
    fun h h' m m' c k1 k2 k3 k4 => hlo.once h h' m m' c k1 k2 (simp_merge_loop k3) (simp_merge_loop k4)
  refine ⟨fun b hb => ?_, fun b hb => ?_⟩
  · simp only [plain, eliminate, erase, if_neg hb]
    split <;> simp
  · simp only [plain, eliminate, erase, if_neg hb, deadCont_fixed hv]
    cases hd : deadCont (simplified fn A) (live fn A) b with
    | some h => exact .inl ⟨h, deadCont_cont hd, rfl⟩
    | none =>
      refine .inr ⟨fun h hc => ?_, rfl⟩
      rw [cont_deadCont hu hc] at hd
      cases hd

theorem plain_trim (L : List Lab) (G : Fn) : trim L (plain G) = trim L G := by
  refine fn_ext rfl rfl fun x => ?_
  by_cases hx : x ∈ L
  · rw [trim_block hx, trim_block hx]; rfl
  · rw [trim_off hx, trim_off hx]

/-- **The result is valid**: SSA form, phis with one value for each predecessor (also where a dead continue target
still goes to its loop header), definitions that dominate uses. Merge instructions are looked at in `targets_kept`. -/
theorem result_valid (hv : Valid S fn) (hu : Undefs S fn A) (hlo : Loops fn) :
    Valid S (plain (eliminate fn A)) := by
  have hi := inv_fixed (A := A) hv
  have hc := result_closed (A := A) hv
  have hlist : ∀ b ∈ live fn A, b ∈ (eliminate fn A).labels := by
    intro b hb
    refine List.mem_filter.2 ⟨?_, by simp [hb]⟩
    rw [hi.labels]
    exact live_listed hv hb
  refine whole (fn := fn) (L := live fn A) (F := simplified fn A) ?_ ⟨hc.entry, hc.next⟩ (result_shell hv hlo) ?_ ?_ hlist
    ?_ ?_ ?_ ?_ (fun _ => rfl)
  · rw [plain_trim, result_trim hv]; exact hi.valid
  · exact fun h h' m m' c k1 k2 k3 k4 => hlo.once h h' m m' c k1 k2 (simp_merge_loop k3) (simp_merge_loop k4)
  · rintro c ⟨_, h1, h2, m, h3⟩
    have he : (plain (eliminate fn A)).entry = fn.entry := hi.entry
    rw [he] at h1 h2 h3
    obtain ⟨q, h4, _⟩ := hlo.back fn.entry m c hv.first ⟨[], .entry⟩ (simp_merge_loop h3)
    exact hv.entry_preds q h4
  · rintro h c hcont
    have hcl : c ∈ fn.labels := by
      obtain ⟨_, h1, h2, m, h3⟩ := hcont
      exact hlo.listed h m c h2 (simp_merge_loop h3)
    refine List.mem_filter.2 ⟨by rw [hi.labels]; exact hcl, ?_⟩
    have hu : Uniq (simplified fn A) :=
      fun h h' m m' c k1 k2 k3 k4 => hlo.once h h' m m' c k1 k2 (simp_merge_loop k3) (simp_merge_loop k4)
    rw [deadCont_fixed hv, cont_deadCont hu hcont]
    simp
  · intro b hb
    show (eliminate fn A).succs b = _
    rw [result_succs hv hb, simp_succs, if_pos hb]
  · intro s hs φ hφ
    have : φ ∈ ((eliminate fn A).block s).phis := hφ
    simp only [eliminate, erase, if_pos hs] at this
    exact fixed_done hv hu hlo s hs φ this
  · intro b x hx
    rw [plain_trim, result_trim hv] at hx
    have := hi.defs b x hx
    have := (mem_trim_defs.1 this).2
    rwa [simp_defs] at this

/-- Whatever the `OpUndef`s and loops are, the reachable part of the result is valid. -/
theorem reachable_valid (hv : Valid S fn) : ∃ R : Fn, Valid S R ∧ R.entry = (eliminate fn A).entry ∧
    ∀ b, Reachable (eliminate fn A) b → Reachable R b ∧ (R.block b).body = ((eliminate fn A).block b).body ∧
      (R.block b).term = ((eliminate fn A).block b).term ∧
      (R.block b).phis.map Phi.id = ((eliminate fn A).block b).phis.map Phi.id := by
  refine ⟨trim (live fn A) (eliminate fn A), ?_, rfl, fun b hb => ⟨(result_closed hv).reachable.2 hb, ?_⟩⟩
  · rw [result_trim hv]; exact (inv_fixed hv).valid
  · have hl := (live_reachable hv b).1 hb
    rw [trim_ids, if_pos hl, trim_block hl]
    exact ⟨rfl, rfl, rfl⟩

/-! ### What is left -/

theorem result_merge (hv : Valid S fn) {b} (h : b ∈ live fn A) :
    ((eliminate fn A).block b).merge = newMerge fn A b := by
  simp only [eliminate, erase, if_pos h]
  rw [(inv_fixed hv).merge]
  simp only [simplified, if_pos h]

/-- The merge block and the continue target a reachable header names are still blocks. -/
theorem targets_kept (hv : Valid S fn) {b M'} (h : Reachable (eliminate fn A) b)
    (hm : ((eliminate fn A).block b).merge = some M') :
    (mergeTarget M' ∈ fn.labels → mergeTarget M' ∈ (eliminate fn A).labels) ∧
    ∀ m c, M' = .loop m c → c ∈ fn.labels → c ∈ (eliminate fn A).labels := by
  have hi := inv_fixed (A := A) hv
  have hl := (live_reachable hv b).1 h
  have hbl : b ∈ fn.labels := live_listed hv hl
  have hmF : ((fixPhis A (live fn A) (simplified fn A)).block b).merge = some M' := by
    simpa only [eliminate, erase, if_pos hl] using hm
  constructor
  · intro ht
    refine List.mem_filter.2 ⟨by rw [hi.labels]; exact ht, ?_⟩
    by_cases hx : mergeTarget M' ∈ live fn A
    · simp [hx]
    · have : deadMerge (fixPhis A (live fn A) (simplified fn A)) (live fn A) (mergeTarget M') = true := by
        simp only [deadMerge, Bool.and_eq_true, List.any_eq_true]
        refine ⟨by simp [hx], b, by rw [hi.labels]; exact hbl, by simpa using hl, ?_⟩
        rw [hmF]; simp
      simp [this]
  · rintro m c rfl ht
    refine List.mem_filter.2 ⟨by rw [hi.labels]; exact ht, ?_⟩
    by_cases hx : c ∈ live fn A
    · simp [hx]
    · have : (deadCont (fixPhis A (live fn A) (simplified fn A)) (live fn A) c).isSome = true := by
        unfold deadCont
        rw [if_neg (by simpa using hx), List.find?_isSome]
        refine ⟨b, by rw [hi.labels]; exact hbl, ?_⟩
        rw [hmF]; simp [hl]
      simp [this]

/-- Every block that is left can be reached, or is empty and the merge block or continue target of a block that can
be reached. -/
theorem left_only (hv : Valid S fn) {x} (h : x ∈ (eliminate fn A).labels) : Reachable (eliminate fn A) x ∨
    (((eliminate fn A).block x).phis = [] ∧ ((eliminate fn A).block x).body = [] ∧
      ∃ b M', Reachable (eliminate fn A) b ∧ ((eliminate fn A).block b).merge = some M' ∧
        (mergeTarget M' = x ∨ ∃ m, M' = .loop m x)) := by
  obtain ⟨h1, h2⟩ := List.mem_filter.1 h
  by_cases hl : x ∈ live fn A
  · exact .inl ((live_reachable hv x).2 hl)
  right
  refine ⟨?_, ?_, ?_⟩
  · simp only [eliminate, erase, if_neg hl]; split <;> rfl
  · simp only [eliminate, erase, if_neg hl]; split <;> rfl
  · simp only [Bool.or_eq_true] at h2
    rcases h2 with (h2 | h2) | h2
    · exact absurd (by simpa using h2) hl
    · obtain ⟨b, hb⟩ := Option.isSome_iff_exists.1 h2
      obtain ⟨_, k1, k2, m, k3⟩ := deadCont_cont hb
      refine ⟨b, .loop m x, (live_reachable hv b).2 k1, ?_, .inr ⟨m, rfl⟩⟩
      simp only [eliminate, erase, if_pos k1]
      exact k3
    · simp only [deadMerge, Bool.and_eq_true, List.any_eq_true] at h2
      obtain ⟨_, b, _, k1, k2⟩ := h2
      have k1 : b ∈ live fn A := by simpa using k1
      split at k2
      · rename_i M' e
        refine ⟨b, M', (live_reachable hv b).2 k1, ?_, .inl (by simpa using k2)⟩
        simp only [eliminate, erase, if_pos k1]
        exact e
      · cases k2

/-! ### Branches that are simplified -/

theorem fix_br {L : List Lab} {G : Fn} (x : Lab × Id) {y t} (h : (G.block y).term = .br t) :
    ((fixPhi A L G x).block y).term = .br t := by
  unfold fixPhi
  split
  · exact h
  · simp only
    split
    · exact h
    · split
      · simp only [kill, subBlock]
        split
        · rename_i e; rw [← e, h]; rfl
        · rw [h]; rfl
      · simp only [setArgs]
        split
        · rename_i e; rw [← e, h]
        · exact h

theorem fixes_br {L : List Lab} {y t} : ∀ {xs : List (Lab × Id)} {G : Fn}, (G.block y).term = .br t →
    ((xs.foldl (fixPhi A L) G).block y).term = .br t
  | [], _, h => h
  | x :: xs, _, h => fixes_br (xs := xs) (fix_br x h)

theorem result_br {b t} (hl : b ∈ live fn A) (h : newTerm fn A b = .br t) :
    ((eliminate fn A).block b).term = .br t := by
  simp only [eliminate, erase, if_pos hl]
  exact fixes_br (by rw [simp_term hl]; exact h)

/-- A reachable branch on a constant (but one of a back edge that is kept) becomes unconditional. -/
theorem constant_branch (hv : Valid S fn) {b c t f} {k : Bool} (hr : Reachable (eliminate fn A) b)
    (ht : (fn.block b).term = .cond c t f) (hk : A.kind c = if k then .yes else .no) (hd : 0 < A.depth)
    (hb : A.back b = false) : ((eliminate fn A).block b).term = .br (if k then t else f) := by
  refine result_br ((live_reachable hv b).1 hr) ?_
  obtain ⟨n, hn⟩ : ∃ n, A.depth = n + 1 := ⟨A.depth - 1, by omega⟩
  have hc : constCond A.kind A.depth c = some k := by
    rw [hn]; cases k <;> simp [constCond, hk]
  unfold newTerm target liveLab
  rw [hb, ht]
  simp [hc]

/-- The same for a switch: it goes to the first case with the value, or to the default. -/
theorem constant_switch (hv : Valid S fn) {b g x d cs ls n} (hr : Reachable (eliminate fn A) b)
    (ht : (fn.block b).term = .multi g [x] (d :: cs)) (hl : A.lits b = some ls) (hk : A.int x = some n)
    (hb : A.back b = false) (hn : A.nested b = false) :
    ((eliminate fn A).block b).term = .br (((ls.zip cs).lookup n).getD d) := by
  refine result_br ((live_reachable hv b).1 hr) ?_
  unfold newTerm target liveLab
  rw [hb, ht]
  simp [hl, hk, hn, pick_lookup]

/-! ### A case -/

/-- A loop whose body leaves at once: 1 is true, 2 is undef, 3 an argument. -/
def early : Fn where
  entry := 0
  labels := [0, 1, 2, 3, 4, 5, 6]
  block
    | 0 => ⟨[], [.op 10 [], .op 11 []], none, .cond 3 1 2⟩
    | 1 => ⟨[], [], none, .br 3⟩
    | 2 => ⟨[], [], none, .br 3⟩
    | 3 => ⟨[⟨20, false, [(10, 1), (11, 2), (12, 5)]⟩], [], some (.loop 6 5), .cond 1 6 4⟩
    | 4 => ⟨[], [.op 12 [20]], none, .cond 3 5 6⟩
    | 5 => ⟨[], [], none, .br 3⟩
    | 6 => ⟨[⟨21, false, [(20, 3), (12, 4)]⟩], [.op 22 [21]], none, .multi 9 [22, 21] []⟩
    | _ => emptyBlock

def sem : Sem Nat (List Nat) where
  start x := if x = 1 then some 1 else if x = 2 then some 0 else if x = 3 then some 5 else none
  mem := []
  act d xs m x m' := x = d + xs.sum ∧ m' = d :: m
  jump _ _ _ _ := False
  truth v := v != 0

def facts : Info where
  kind x := if x = 1 then .yes else .other
  depth := 4
  int _ := none
  lits _ := none
  back _ := false
  nested _ := false
  sel _ := none
  isUndef x := x == 2
  undef _ := 2

theorem early_off : ∀ b, b ∉ early.labels → early.block b = emptyBlock := by
  intro b hb
  simp only [early]
  split <;> first | rfl | exact absurd (by decide) hb

abbrev earlyTable : Licm.Spec.Table := [(0, [0]), (1, [0, 1]), (2, [0, 2]), (3, [0, 3]), (4, [0, 3, 4]), (5, [0, 3, 4, 5]),
  (6, [0, 3, 6])]

theorem early_dom : ∀ a b, (Licm.Spec.info earlyTable).dom a b = true → Dominates early a b :=
  Licm.Spec.table_dom (by decide)

theorem early_valid : Valid sem early :=
  valid_phis early_dom (start := fun x => x == 1 || x == 2 || x == 3) (by
    intro x hx
    have : x = 1 ∨ x = 2 ∨ x = 3 := by simpa [or_assoc] using hx
    rcases this with rfl | rfl | rfl <;> decide) early_off (by decide) rfl (by decide)

theorem no_def {G : Fn} (he : ∀ b, b ∉ G.labels → G.block b = emptyBlock) {x}
    (h : G.labels.all (fun b => !(defs (G.block b)).contains x) = true) : ∀ b, x ∉ defs (G.block b) := by
  intro b hb
  by_cases hl : b ∈ G.labels
  · have := List.all_eq_true.1 h b hl
    simp [hb] at this
  · rw [he b hl] at hb; simp [defs, emptyBlock] at hb

theorem early_means : Means sem id early facts where
  no d h := by simp only [facts] at h; split at h <;> cases h
  yes d h := by
    have : d = 1 := by
      simp only [facts] at h
      split at h
      · assumption
      · cases h
    subst this
    exact ⟨no_def early_off (by decide), fun v hv => by cases hv; rfl⟩
  neg d x h := by simp only [facts] at h; split at h <;> cases h
  int d n h := by cases h
  switch b ls g ops ts h := by cases h

theorem early_undefs : Undefs sem early facts where
  new d := (⟨by decide, no_def early_off (by decide)⟩ : Global sem early 2)
  old x h := by
    have : x = 2 := by simpa [facts] using h
    subst this
    exact ⟨by decide, no_def early_off (by decide)⟩

theorem early_loop {h m c} (hm : (early.block h).merge = some (.loop m c)) : h = 3 ∧ m = 6 ∧ c = 5 := by
  by_cases hl : h ∈ early.labels
  · have : ∀ h ∈ early.labels, ∀ m c, (early.block h).merge = some (.loop m c) → h = 3 ∧ m = 6 ∧ c = 5 := by
      intro h hh
      have : h = 0 ∨ h = 1 ∨ h = 2 ∨ h = 3 ∨ h = 4 ∨ h = 5 ∨ h = 6 := by simpa [early] using hh
      rcases this with rfl | rfl | rfl | rfl | rfl | rfl | rfl <;> intro m c e <;> simp [early] at e
      exact ⟨rfl, e.1.symm, e.2.symm⟩
    exact this h hl m c hm
  · rw [early_off h hl] at hm; cases hm

theorem early_loops : Loops early where
  back h m c _ _ hm := by
    obtain ⟨rfl, rfl, rfl⟩ := early_loop hm
    exact ⟨5, by decide, Dominates.refl _⟩
  once h h' m m' c _ _ h1 h2 := by rw [(early_loop h1).1, (early_loop h2).1]
  listed h m c _ h1 := by rw [(early_loop h1).2.2]; decide

/-- The hypotheses hold of it; the loop goes away, but for its empty continue target; one phi is left with an undef
value, the other is replaced by its value. -/
example : RunsKept sem early (eliminate early facts) ∧ Valid sem (plain (eliminate early facts)) ∧
    (eliminate early facts).labels = [0, 1, 2, 3, 5, 6] ∧
    ((eliminate early facts).block 3) =
      ⟨[⟨20, false, [(10, 1), (11, 2), (2, 5)]⟩], [], some (.loop 6 5), .br 6⟩ ∧
    ((eliminate early facts).block 5) = ⟨[], [], none, .br 3⟩ ∧
    ((eliminate early facts).block 6) = ⟨[], [.op 22 [20]], none, .multi 9 [22, 20] []⟩ :=
  ⟨runs_kept early_valid early_means, result_valid early_valid early_undefs early_loops, by decide, by decide, by decide,
    by decide⟩

/-- There are runs. -/
example : ∃ c, Reach sem early [6, 3, 1, 0] c := by
  refine ⟨_, .step (c' := ⟨6, _, _⟩) (.step (c' := ⟨3, _, _⟩) (.step (c' := ⟨1, _, _⟩)
    (.start (fn := early) (c := ⟨0, _, _⟩) ⟨rfl, .op (xs := []) rfl ⟨rfl, rfl⟩ (.op (xs := []) rfl ⟨rfl, rfl⟩ .nil)⟩)
    (.mk (.cond (v := 5) rfl) (by intro φ hφ; cases hφ) .nil))
    (.mk .br (by decide) .nil))
    (.mk (.cond (v := 1) rfl) (by decide) (.op (xs := [10]) rfl ⟨rfl, rfl⟩ .nil))⟩

/-! ### A local `OpUndef` -/

/-- The same loop, but the value from the continue target is an `OpUndef` of block 4. -/
def localUndef : Fn where
  entry := 0
  labels := [0, 1, 2, 3, 4, 5, 6]
  block b :=
    if b = 3 then ⟨[⟨20, false, [(10, 1), (11, 2), (13, 5)]⟩], [], some (.loop 6 5), .cond 1 6 4⟩
    else if b = 4 then ⟨[], [.op 13 [], .op 12 [20]], none, .cond 3 5 6⟩
    else early.block b

def facts13 : Info := { facts with isUndef := fun x => x == 2 || x == 13 }

theorem local_off : ∀ b, b ∉ localUndef.labels → localUndef.block b = emptyBlock := by
  intro b hb
  have h3 : b ≠ 3 := by rintro rfl; exact hb (by decide)
  have h4 : b ≠ 4 := by rintro rfl; exact hb (by decide)
  simp only [localUndef, if_neg h3, if_neg h4]
  exact early_off b hb

theorem local_valid : Valid sem localUndef :=
  valid_phis (dom := (Licm.Spec.info earlyTable).dom) (Licm.Spec.table_dom (by decide))
    (start := fun x => x == 1 || x == 2 || x == 3) (by
    intro x hx
    have : x = 1 ∨ x = 2 ∨ x = 3 := by simpa [or_assoc] using hx
    rcases this with rfl | rfl | rfl <;> decide) local_off (by decide) rfl (by decide)

/-- **Finding.** When the value from a continue target that becomes dead is an `OpUndef` in a block that is erased, the
phi keeps that id, which has no definition any more: the result is not valid, although the function was. -/
theorem local_undef_dangles : Valid sem localUndef ∧ ¬ Valid sem (plain (eliminate localUndef facts13)) ∧
    (⟨20, false, [(10, 1), (11, 2), (13, 5)]⟩ : Phi) ∈ ((eliminate localUndef facts13).block 3).phis ∧
    ∀ b, 13 ∉ defs ((eliminate localUndef facts13).block b) := by
  have hno : ∀ b, 13 ∉ defs ((eliminate localUndef facts13).block b) := by
    intro b
    by_cases hb : b ∈ (eliminate localUndef facts13).labels
    · have : b = 0 ∨ b = 1 ∨ b = 2 ∨ b = 3 ∨ b = 5 ∨ b = 6 := by
        have e : (eliminate localUndef facts13).labels = [0, 1, 2, 3, 5, 6] := by decide
        rw [e] at hb
        simpa using hb
      rcases this with rfl | rfl | rfl | rfl | rfl | rfl <;> decide
    · intro h
      by_cases hl : b ∈ live localUndef facts13
      · refine hb (List.mem_filter.2 ⟨?_, by simp [hl]⟩)
        rw [(inv_fixed local_valid).labels]
        exact live_listed local_valid hl
      · simp only [eliminate, erase, if_neg hl] at h
        split at h <;> simp [defs] at h
  have hφ : (⟨20, false, [(10, 1), (11, 2), (13, 5)]⟩ : Phi) ∈ ((eliminate localUndef facts13).block 3).phis := by decide
  refine ⟨local_valid, fun hv => ?_, hφ, hno⟩
  rcases hv.phi_avail 3 _ hφ (13, 5) (by simp) with ⟨h, _⟩ | ⟨b, h, _⟩
  · exact h rfl
  · exact hno b h

end Verif.DeadBranch
