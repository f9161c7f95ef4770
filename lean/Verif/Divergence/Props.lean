import Verif.Divergence.Lemmas
/-!
# C77: divergence analysis and the lint for derivatives
-/
set_option linter.unusedSimpArgs false
set_option linter.unusedVariables false
namespace Verif.Divergence
open Verif.DataFlow Verif.ControlDep Spec

/-- The analysis ends for every function. -/
theorem analysis_ends (f : Fn) (all : List Nat) (ok : Spec.Ok f all) :
    ∃ st, analyse f = some st := by
  obtain ⟨st, c, -, h, -⟩ := analyse_levels ok
  exact ⟨st, h⟩

/-- No false alarm: where a level above uniform is reported, divergence flows there from an
instruction that brings it in. -/
theorem levels_justified (f : Fn) (all : List Nat) (ok : Spec.Ok f all) {st : St}
    (h : analyse f = some st) (i : Nat) :
    st.div i ≤ 2 ∧ (0 < st.div i → Flows f i (st.div i)) := by
  obtain ⟨st', c, -, h', hi, -⟩ := analyse_levels ok
  rw [h] at h'
  cases h'
  exact hi.sane i

theorem warnings_justified (f : Fn) (all : List Nat) (ok : Spec.Ok f all) {st : St}
    (h : analyse f = some st) (b : Nat) (hw : warned st b = true) : Flows f b 2 := by
  have h1 := levels_justified f all ok h b
  have h2 : 1 < st.div b := by simpa [warned] using hw
  have h3 : st.div b = 2 := by omega
  rw [h3] at h1
  exact h1.2 (by omega)

/-- What the levels take into account, for each instruction of the function (`Settled`):
instructions that bring in divergence, operands that are values, the blocks branches are in, and
the conditions of branches in uniform blocks. Missing: labels as operands of phis, conditions of
branches in blocks that are not uniform (`phi_missed`, `condition_skipped`). -/
theorem flows_followed_partial (f : Fn) (all : List Nat) (ok : Spec.Ok f all) {st : St}
    (h : analyse f = some st) : ∀ i ∈ f.init, Settled f st.div i := by
  obtain ⟨st', c, -, h', -, hs⟩ := analyse_levels ok
  rw [h] at h'
  cases h'
  exact hs

/-- What is neither in a block nor reached as a user stays uniform. -/
theorem not_visited (f : Fn) (all : List Nat) (ok : Spec.Ok f all) {st : St}
    (h : analyse f = some st) {i : Nat} (hi : i ∉ all) : st.div i = 0 := by
  obtain ⟨st', c, -, h', hi', -⟩ := analyse_levels ok
  rw [h] at h'
  cases h'
  exact hi'.out i hi

/-- The level of a variable, for every storage class. -/
theorem variable_levels (v : Var) (l : Nat) : varLevel v = l ↔ Varies v l := by
  constructor
  · rintro rfl
    obtain ⟨s, fl, im, ro⟩ := v
    cases s
    case input =>
      cases fl
      · exact .interpolated rfl rfl
      · exact .flat rfl rfl
    case uniformConstant =>
      cases im
      · exact .constant rfl (by simp)
      · cases ro
        · exact .written rfl rfl rfl
        · exact .constant rfl (by simp)
    all_goals first
      | exact .own (by simp)
      | exact .shared (by simp)
  · rintro (h | ⟨h, h'⟩ | ⟨h, h'⟩ | ⟨h, h', h''⟩ | ⟨h, h'⟩ | h) <;> obtain ⟨s, fl, im, ro⟩ := v <;>
      simp at h
    · rcases h with h | h | h | h | h | h | h | h | h <;> subst h <;> rfl
    · subst h; simp at h'; simp [varLevel, h']
    · subst h; simp at h'; simp [varLevel, h']
    · subst h; simp at h' h''; simp [varLevel, h', h'']
    · subst h; simp at h'; cases im <;> simp_all [varLevel]
    · rcases h with h | h | h | h <;> subst h <;> rfl

example : varLevel ⟨.workgroup, false, false, false⟩ = 2 := (variable_levels _ _).2 (.own (by decide))

/-! ### what is missed -/

def dep (s t v : Nat) : Dep Nat := ⟨some s, t, v⟩

def graph (deps : List (Dep Nat)) (blocks : List Nat) : Cdg Nat where
  rev := fun b => match b with
    | none => some []
    | some b => if b ∈ blocks then some (deps.filter fun d => d.target = b) else none
  fwd := fun b => match b with
    | none => some []
    | some b => if b ∈ blocks then some (deps.filter fun d => d.source = some b) else none

/-- A loop in which an input value is added up:
```
1:  10 = OpLoad (an input variable)                    -> 2
2:  20 = OpPhi 90 1, 40 4;  21 = 20 < 94    if 21 -> 3 else -> 4
3:                                                     -> 4
4:  41 = OpPhi 91 2, 92 3;  40 = 20 + 10    if 93 -> 2 else -> 5
5:  return
``` -/
def looped : Fn where
  kind := fun
    | 1 => .label | 2 => .label | 3 => .label | 4 => .label | 5 => .label
    | 10 => .load (some ⟨.input, false, false, false⟩)
    | 20 => .op [90, 1, 40, 4] | 21 => .op [20, 94] | 41 => .op [91, 2, 92, 3]
    | 40 => .op [20, 10]
    | 11 => .term 1 | 22 => .term 2 | 31 => .term 3 | 42 => .term 4 | 51 => .term 5
    | _ => .op []
  users := fun
    | 10 => [40] | 20 => [21, 40] | 21 => [22] | 40 => [20]
    | 90 => [20] | 91 => [41] | 92 => [41] | 93 => [42] | 94 => [21]
    | _ => []
  phis := fun | 2 => [20] | 4 => [41] | _ => []
  cdg := graph [dep 2 3 3, dep 4 2 2, dep 4 4 2] [1, 2, 3, 4, 5]
  cond := fun | 2 => 21 | 4 => 93 | _ => 0
  follow := fun | 1 => 2 | 2 => 2 | 3 => 4 | 4 => 4 | 5 => 5 | _ => 0
  init := [10, 11, 1, 20, 21, 22, 2, 31, 3, 41, 40, 42, 4, 51, 5]

def loopedAll : List Nat := [10, 11, 1, 20, 21, 22, 2, 31, 3, 41, 40, 42, 4, 51, 5]

/-- The decidable parts of `Spec.Ok`, for functions that have nothing outside a list of ids. -/
theorem graph_rev {deps : List (Dep Nat)} {blocks : List Nat} {b : Nat} {d : Dep Nat}
    (h : d ∈ (graph deps blocks).rev.get (some b)) : d ∈ deps ∧ d.target = b := by
  simp only [graph, DepMap.get] at h
  split at h
  · simpa using h
  · simp at h

theorem graph_fwd {deps : List (Dep Nat)} {blocks : List Nat} {b : Nat} {d : Dep Nat} :
    d ∈ (graph deps blocks).fwd.get (some b) ↔ b ∈ blocks ∧ d ∈ deps ∧ d.source = some b := by
  simp only [graph, DepMap.get]
  split
  · rename_i h; simp [h]
  · rename_i h; simp [h]

theorem looped_ok : Spec.Ok looped loopedAll := by
  refine ⟨by decide, by decide, by decide, ?_, ?_, ?_, ?_⟩
  · intro b d h
    obtain ⟨-, h, -⟩ := graph_fwd.1 h
    simp only [List.mem_cons, List.not_mem_nil, or_false] at h
    rcases h with rfl | rfl | rfl <;> exact ⟨rfl, by decide⟩
  · intro i hi ins hk v hv hvk
    simp only [loopedAll, List.mem_cons, List.not_mem_nil, or_false] at hi
    rcases hi with rfl | rfl | rfl | rfl | rfl | rfl | rfl | rfl | rfl | rfl | rfl | rfl | rfl |
      rfl | rfl <;> simp only [looped, Kind.op.injEq, reduceCtorEq] at hk <;>
      subst hk <;> simp only [List.mem_cons, List.not_mem_nil, or_false] at hv
    · rcases hv with rfl | rfl | rfl | rfl <;> first | decide | exact absurd rfl hvk
    · rcases hv with rfl | rfl <;> decide
    · rcases hv with rfl | rfl | rfl | rfl <;> first | decide | exact absurd rfl hvk
    · rcases hv with rfl | rfl <;> decide
  · intro b d s h hs
    obtain ⟨h1, h2⟩ := graph_rev h
    refine ⟨h2, graph_fwd.2 ⟨?_, h1, hs⟩⟩
    simp only [List.mem_cons, List.not_mem_nil, or_false] at h1
    rcases h1 with rfl | rfl | rfl <;> cases hs <;> decide
  · intro b d s h hs
    obtain ⟨h1, h2⟩ := graph_rev h
    simp only [List.mem_cons, List.not_mem_nil, or_false] at h1
    rcases h1 with rfl | rfl | rfl <;> cases hs <;> simp [looped]

/-- The levels after the analysis, computed. -/
theorem analyse_of {f : Fn} {n : Nat} {st : St}
    (h : drainN (analysis f) n St.new
      (f.init.foldl (fun q i => if i ∈ q then q else q ++ [i]) []) = some st) :
    analyse f = some st := run_of_drainN rfl h

/-- **Found**: when a block becomes divergent, its own phis are enqueued instead of the phis that
have it as an operand. Here `41` is `91` or `92` as the divergent condition `21` says, divergence
flows to it, and it is uniform for the analysis. -/
theorem phi_missed : ∃ st, analyse looped = some st ∧ st.div 3 = 2 ∧ st.div 41 = 0 ∧
    Flows looped 41 2 := by
  cases h : drainN (analysis looped) 60 St.new
      (looped.init.foldl (fun q i => if i ∈ q then q else q ++ [i]) []) with
  | none =>
    have : (drainN (analysis looped) 60 St.new
      (looped.init.foldl (fun q i => if i ∈ q then q else q ++ [i]) [])).isSome = true := by decide
    rw [h] at this
    simp at this
  | some st =>
    have key : (drainN (analysis looped) 60 St.new
      (looped.init.foldl (fun q i => if i ∈ q then q else q ++ [i]) [])).map
        (fun s => (s.div 3, s.div 41)) = some (2, 0) := by decide
    rw [h] at key
    simp only [Option.map_some, Option.some.injEq, Prod.mk.injEq] at key
    have hst := analyse_of h
    refine ⟨st, hst, key.1, key.2, ?_⟩
    have h3 := (levels_justified looped loopedAll looped_ok hst 3).2
    rw [key.1] at h3
    exact .operand (i := 41) (ins := [91, 2, 92, 3]) (v := 3) rfl (by simp) (h3 (by omega))

/-- A branch inside a block that only part of the invocations run:
```
1:  10 = OpLoad (a flat input);  11 = 10 < 90     if 11 -> 3 else -> 9
3:  31 = 10 < 91                                  if 31 -> 4 else -> 8
4:                                                if 92 -> 5 else -> 6
5:  -> 7      6:  -> 7      7:  -> 8      8:  -> 9      9:  return
``` -/
def nested : Fn where
  kind := fun
    | 1 => .label | 3 => .label | 4 => .label | 5 => .label | 6 => .label | 7 => .label
    | 8 => .label | 9 => .label
    | 10 => .load (some ⟨.input, true, false, false⟩)
    | 11 => .op [10, 90] | 31 => .op [10, 91]
    | 12 => .term 1 | 32 => .term 3 | 41 => .term 4 | 51 => .term 5 | 61 => .term 6
    | 71 => .term 7 | 81 => .term 8 | 95 => .term 9
    | _ => .op []
  users := fun
    | 10 => [11, 31] | 11 => [12] | 31 => [32] | 92 => [41] | 90 => [11] | 91 => [31] | _ => []
  phis := fun _ => []
  cdg := graph [dep 1 3 3, dep 1 8 3, dep 3 4 4, dep 3 7 4, dep 4 5 5, dep 4 6 6]
    [1, 3, 4, 5, 6, 7, 8, 9]
  cond := fun | 1 => 11 | 3 => 31 | 4 => 92 | _ => 0
  follow := fun | 1 => 1 | 3 => 3 | 4 => 4 | 5 => 9 | 6 => 9 | 7 => 9 | 8 => 9 | 9 => 9 | _ => 0
  init := [10, 11, 12, 1, 31, 32, 3, 41, 4, 51, 5, 61, 6, 71, 7, 81, 8, 95, 9]

/-- **Found**: where the block with the branch is partially uniform, the condition of the branch
is not looked at. Control comes together in block 7 after the branch in block 3, so that it is
divergent, and a derivative in it is not reported. -/
theorem condition_skipped : ∃ st, analyse nested = some st ∧ st.div 3 = 1 ∧ st.div 7 = 1 ∧
    warned st 7 = false ∧ Flows nested 7 2 := by
  cases h : drainN (analysis nested) 60 St.new
      (nested.init.foldl (fun q i => if i ∈ q then q else q ++ [i]) []) with
  | none =>
    have : (drainN (analysis nested) 60 St.new
      (nested.init.foldl (fun q i => if i ∈ q then q else q ++ [i]) [])).isSome = true := by decide
    rw [h] at this
    simp at this
  | some st =>
    have key : (drainN (analysis nested) 60 St.new
      (nested.init.foldl (fun q i => if i ∈ q then q else q ++ [i]) [])).map
        (fun s => (s.div 3, s.div 7)) = some (1, 1) := by decide
    rw [h] at key
    simp only [Option.map_some, Option.some.injEq, Prod.mk.injEq] at key
    refine ⟨st, analyse_of h, key.1, key.2, by simp [warned, key.2], ?_⟩
    have h10 : Flows nested 10 1 := .load (i := 10) (v := ⟨.input, true, false, false⟩) rfl
    have h31 : Flows nested 31 1 := .operand (i := 31) (ins := [10, 91]) (v := 10) rfl (by simp) h10
    exact .branch (b := 7) (d := dep 3 7 4) (s := 3) (l := 1) rfl (by decide) rfl h31

/-- A function whose parameter decides a branch: `if 10 -> 2 else -> 3`. The parameter is not in
a block. -/
def called : Fn where
  kind := fun
    | 1 => .label | 2 => .label | 3 => .label | 10 => .param
    | 12 => .term 1 | 21 => .term 2 | 31 => .term 3 | _ => .op []
  users := fun | 10 => [12] | _ => []
  phis := fun _ => []
  cdg := graph [dep 1 2 2] [1, 2, 3]
  cond := fun | 1 => 10 | _ => 0
  follow := fun | 1 => 1 | 2 => 3 | 3 => 3 | _ => 0
  init := [12, 1, 21, 2, 31, 3]

theorem called_ok : Spec.Ok called [12, 1, 21, 2, 31, 3] := by
  refine ⟨by decide, by decide, by decide, ?_, ?_, ?_, ?_⟩
  · intro b d h
    obtain ⟨-, h, -⟩ := graph_fwd.1 h
    simp only [List.mem_cons, List.not_mem_nil, or_false] at h
    subst h
    exact ⟨rfl, by decide⟩
  · intro i hi ins hk v hv hvk
    simp only [List.mem_cons, List.not_mem_nil, or_false] at hi
    rcases hi with rfl | rfl | rfl | rfl | rfl | rfl <;>
      simp only [called, Kind.op.injEq, reduceCtorEq] at hk
  · intro b d s h hs
    obtain ⟨h1, h2⟩ := graph_rev h
    refine ⟨h2, graph_fwd.2 ⟨?_, h1, hs⟩⟩
    simp only [List.mem_cons, List.not_mem_nil, or_false] at h1
    subst h1
    cases hs
    decide
  · intro b d s h hs
    obtain ⟨h1, h2⟩ := graph_rev h
    simp only [List.mem_cons, List.not_mem_nil, or_false] at h1
    subst h1
    cases hs
    simp [called]

/-- **Found**: parameters, which should be divergent, are never visited, because they are not in
a block. A block that depends on a parameter is uniform for the analysis. -/
theorem parameter_missed : ∃ st, analyse called = some st ∧ st.div 10 = 0 ∧ warned st 2 = false ∧
    Flows called 10 2 ∧ Flows called 2 2 := by
  obtain ⟨st, hst⟩ := analysis_ends called _ called_ok
  have h10 := not_visited called _ called_ok hst (i := 10) (by decide)
  have f10 : Flows called 10 2 := .param (i := 10) rfl
  refine ⟨st, hst, h10, ?_, f10, .branch (b := 2) (d := dep 1 2 2) (s := 1) (l := 2) rfl (by decide) rfl f10⟩
  cases h : drainN (analysis called) 60 St.new
      (called.init.foldl (fun q i => if i ∈ q then q else q ++ [i]) []) with
  | none =>
    have : (drainN (analysis called) 60 St.new
      (called.init.foldl (fun q i => if i ∈ q then q else q ++ [i]) [])).isSome = true := by decide
    rw [h] at this
    simp at this
  | some st' =>
    have key : (drainN (analysis called) 60 St.new
      (called.init.foldl (fun q i => if i ∈ q then q else q ++ [i]) [])).map
        (fun s => s.div 2) = some 0 := by decide
    rw [h] at key
    have := analyse_of h
    rw [hst] at this
    cases this
    simp only [Option.map_some, Option.some.injEq] at key
    simp [warned, key]

/-! ### explanations -/

/-- Each source is older than what it explains. -/
def Older (st : St) : Prop :=
  ∃ t : Nat → Nat, ∀ i, (st.div i = 0 ∧ st.src i = 0) ∨
    (st.div i = 2 ∧ (st.src i = 0 ∨ (st.div (st.src i) = 2 ∧ t (st.src i) < t i)))

theorem older_set {st : St} (h : Older st) {i s : Nat} (hi : st.div i ≠ 2)
    (hs : s = 0 ∨ st.div s = 2) (dep : Nat → Nat) :
    Older ⟨set st.div i 2, set st.src i s, dep⟩ := by
  obtain ⟨t, ht⟩ := h
  refine ⟨set t i (t s + 1), ?_⟩
  intro j
  by_cases hj : j = i
  · subst hj
    right
    simp only [set_self]
    refine ⟨trivial, ?_⟩
    rcases hs with hs | hs
    · exact Or.inl hs
    · have hsj : s ≠ j := fun e => hi (e ▸ hs)
      exact Or.inr ⟨by rw [set_other _ _ hsj]; exact hs, by rw [set_other _ _ hsj]; omega⟩
  · simp only [set_other _ _ hj]
    rcases ht j with h | ⟨h1, h2⟩
    · exact Or.inl h
    · refine Or.inr ⟨h1, ?_⟩
      rcases h2 with h2 | ⟨h2, h3⟩
      · exact Or.inl h2
      · have : st.src j ≠ i := fun e => hi (e ▸ h2)
        exact Or.inr ⟨by rw [set_other _ _ this]; exact h2, by rw [set_other _ _ this]; exact h3⟩

/-- No variable is read that is partially uniform (a flat input). -/
def NoFlat (f : Fn) : Prop := ∀ i v, f.kind i = .load (some v) → varLevel v ≠ 1

theorem older_level {st : St} (h : Older st) (i : Nat) : st.div i = 0 ∨ st.div i = 2 := by
  obtain ⟨t, ht⟩ := h
  rcases ht i with h | h
  · exact Or.inl h.1
  · exact Or.inr h.1

theorem set_same (g : Nat → Nat) (i : Nat) : set g i (g i) = g := by
  funext j
  by_cases hj : j = i
  · subst hj; rw [set_self]
  · rw [set_other _ _ hj]

theorem older_fold (f : Fn) (i : Nat) : ∀ (ds : List (Dep Nat)) (st : St), Older st →
    Older (ds.foldl (blockStep f i) st) := by
  intro ds
  induction ds with
  | nil => intro st h; exact h
  | cons d ds ih =>
    intro st h
    refine ih _ ?_
    unfold blockStep
    split
    · exact h
    · rename_i s hs
      split
      · rename_i hlt
        have h2 : st.div s = 2 := by rcases older_level h s with e | e <;> omega
        have hi : st.div i ≠ 2 := by omega
        have := older_set h hi (Or.inr h2) st.dep
        rw [h2]
        exact this
      · dsimp only
        split
        · rename_i hlt
          have hc : st.div (f.cond s) = 2 := by
            rcases older_level h (f.cond s) with e | e
            · rw [e, promote_zero] at hlt; omega
            · exact e
          have hp : promote f d (st.div (f.cond s)) = 2 := by
            rw [hc]; unfold promote; simp
          rw [hp] at hlt ⊢
          exact older_set h (by omega) (Or.inr hc) _
        · exact h

theorem older_visit {f : Fn} (hf : NoFlat f) (i : Nat) (st : St) (h : Older st) :
    Older (visit f i st).1 := by
  unfold visit
  cases hk : f.kind i with
  | label =>
    dsimp only
    unfold visitBlock
    split
    · exact h
    · split
      · exact h
      · exact older_fold f i _ st h
  | term b => exact h
  | void => exact h
  | param =>
    dsimp only
    split
    · exact h
    · rename_i h2
      simp only [computeInst, hk]
      exact older_set h h2 (Or.inl rfl) _
  | load v =>
    dsimp only
    split
    · exact h
    · rename_i h2
      cases v with
      | none =>
        simp only [computeInst, hk]
        exact older_set h h2 (Or.inl rfl) _
      | some v =>
        simp only [computeInst, hk]
        have h1 := hf i v hk
        have h3 := varLevel_le v
        by_cases h0 : varLevel v = 0
        · have hz : st.div i = 0 := (older_level h i).resolve_right h2
          have : set st.div i (varLevel v) = st.div := by rw [h0, ← hz, set_same]
          rw [this, if_neg (by omega)]
          exact h
        · have e : varLevel v = 2 := by omega
          rw [e, if_pos (by omega)]
          exact older_set h h2 (Or.inl rfl) _
  | op ins =>
    dsimp only
    split
    · exact h
    · rename_i h2
      simp only [computeInst, hk]
      have hz : st.div i = 0 := (older_level h i).resolve_right h2
      rcases opLoop_from st.div ins with e | ⟨v, hv, e, hp⟩
      · rw [e]
        dsimp only
        have : set st.div i 0 = st.div := by rw [← hz, set_same]
        rw [this]
        exact h
      · rw [e]
        dsimp only
        have hv2 : st.div v = 2 := by rcases older_level h v with e | e <;> omega
        rw [hv2]
        exact older_set h h2 (Or.inr hv2) _

/-- Without flat inputs each explanation ends. -/
theorem explanation_ends (f : Fn) (all : List Nat) (ok : Spec.Ok f all) (hf : NoFlat f) {st : St}
    (h : analyse f = some st) (i : Nat) : ∃ n l, printFlow st.src n i = some l := by
  obtain ⟨st', c, hd, h', -⟩ := analyse_levels ok
  rw [h] at h'
  cases h'
  have hO := drain_inv (I := Older) (fun i s => older_visit hf i s) hd
    ⟨fun _ => 0, fun _ => Or.inl ⟨rfl, rfl⟩⟩
  obtain ⟨t, ht⟩ := hO
  have base : ∀ j, st.src j = 0 → ∃ n l, printFlow st.src n j = some l := by
    intro j hj
    by_cases h0 : j = 0
    · exact ⟨1, [], by simp [printFlow, h0]⟩
    · exact ⟨2, [j], by simp [printFlow, h0, hj]⟩
  have key : ∀ n j, t j ≤ n → ∃ n l, printFlow st.src n j = some l := by
    intro n
    induction n with
    | zero =>
      intro j hj
      rcases ht j with h | ⟨_, h | ⟨_, h⟩⟩
      · exact base j h.2
      · exact base j h
      · exact absurd h (by show ¬ t (st.src j) < t j; omega)
    | succ n ih =>
      intro j hj
      rcases ht j with h | ⟨_, h | ⟨_, h⟩⟩
      · exact base j h.2
      · exact base j h
      · have h : t (st.src j) < t j := h
        obtain ⟨m, l, hl⟩ := ih (st.src j) (by omega)
        by_cases h0 : j = 0
        · exact ⟨1, [], by simp [printFlow, h0]⟩
        · exact ⟨m + 1, j :: l, by simp [printFlow, h0, hl]⟩
  exact key _ i (Nat.le_refl _)

/-- A flat input in a loop:
```
1:  10 = OpLoad (a flat input)                         -> 2
2:  20 = OpPhi 90 1, 70 7;  21 = 10 < 20    if 21 -> 3 else -> 7
3:                                          if 93 -> 4 else -> 5
4:  -> 6      5:  -> 6      6:  -> 7
7:  70 = OpPhi 91 2, 92 6                   if 93 -> 2 else -> 9
9:  return
``` -/
def circle : Fn where
  kind := fun
    | 1 => .label | 2 => .label | 3 => .label | 4 => .label | 5 => .label | 6 => .label
    | 7 => .label | 9 => .label
    | 10 => .load (some ⟨.input, true, false, false⟩)
    | 20 => .op [90, 1, 70, 7] | 21 => .op [10, 20] | 70 => .op [91, 2, 92, 6]
    | 11 => .term 1 | 22 => .term 2 | 31 => .term 3 | 41 => .term 4 | 51 => .term 5
    | 61 => .term 6 | 71 => .term 7 | 95 => .term 9
    | _ => .op []
  users := fun
    | 10 => [21] | 20 => [21] | 21 => [22] | 70 => [20] | 93 => [31, 71]
    | 90 => [20] | 91 => [70] | 92 => [70] | _ => []
  phis := fun | 2 => [20] | 7 => [70] | _ => []
  cdg := graph [dep 2 3 3, dep 2 6 3, dep 3 4 4, dep 3 5 5, dep 7 2 2, dep 7 7 2]
    [1, 2, 3, 4, 5, 6, 7, 9]
  cond := fun | 2 => 21 | 3 => 93 | 7 => 93 | _ => 0
  follow := fun | 1 => 2 | 2 => 2 | 3 => 3 | 4 => 7 | 5 => 7 | 6 => 7 | 7 => 7 | 9 => 9 | _ => 0
  init := [10, 11, 1, 20, 21, 22, 2, 31, 3, 41, 4, 51, 5, 61, 6, 70, 71, 7, 95, 9]

/-- **Found**: with a flat input the sources of divergence can form a circle, since the source of
a partially uniform value is replaced when it becomes divergent. For a derivative in block 6 the
lint prints without end. -/
theorem explanation_endless : ∃ st, analyse circle = some st ∧ warned st 6 = true ∧
    ∀ n, printFlow st.src n 6 = none := by
  cases h : drainN (analysis circle) 80 St.new
      (circle.init.foldl (fun q i => if i ∈ q then q else q ++ [i]) []) with
  | none =>
    have : (drainN (analysis circle) 80 St.new
      (circle.init.foldl (fun q i => if i ∈ q then q else q ++ [i]) [])).isSome = true := by decide
    rw [h] at this
    simp at this
  | some st =>
    have key : (drainN (analysis circle) 80 St.new
      (circle.init.foldl (fun q i => if i ∈ q then q else q ++ [i]) [])).map
        (fun s => (s.div 6, s.src 6, s.src 21, s.src 20, s.src 70)) =
        some (2, 21, 20, 70, 6) := by decide
    rw [h] at key
    simp only [Option.map_some, Option.some.injEq, Prod.mk.injEq] at key
    obtain ⟨k1, k2, k3, k4, k5⟩ := key
    refine ⟨st, analyse_of h, by simp [warned, k1], ?_⟩
    have : ∀ n, printFlow st.src n 6 = none ∧ printFlow st.src n 21 = none ∧
        printFlow st.src n 20 = none ∧ printFlow st.src n 70 = none := by
      intro n
      induction n with
      | zero => exact ⟨rfl, rfl, rfl, rfl⟩
      | succ n ih =>
        obtain ⟨i1, i2, i3, i4⟩ := ih
        refine ⟨?_, ?_, ?_, ?_⟩ <;> simp [printFlow, k2, k3, k4, k5, i1, i2, i3, i4]
    exact fun n => (this n).1

/-! ### The hypotheses are met -/

example : ∃ st, analyse looped = some st := analysis_ends looped loopedAll looped_ok

example : NoFlat called := by
  intro i v h
  unfold called at h
  simp only at h
  split at h <;> simp at h

/-- In the loop above, the divergence of the input reaches the condition. -/
example : ∃ st, analyse looped = some st ∧ st.div 40 = 2 ∧ st.div 20 = 2 ∧ st.div 21 = 2 := by
  obtain ⟨st, h⟩ := analysis_ends looped loopedAll looped_ok
  have hs := flows_followed_partial looped loopedAll looped_ok h
  have hb : ∀ i, st.div i ≤ 2 := fun i => (levels_justified looped loopedAll looped_ok h i).1
  have h10 : st.div 10 = 2 := hs 10 (by decide)
  have h40 := (hs 40 (by decide) : ∀ v ∈ [20, 10], looped.kind v ≠ .label → st.div v ≤ st.div 40) 10
    (by simp) (by simp [looped])
  have e40 : st.div 40 = 2 := by have := hb 40; omega
  have h20 := (hs 20 (by decide) : ∀ v ∈ [90, 1, 40, 4], looped.kind v ≠ .label →
    st.div v ≤ st.div 20) 40 (by simp) (by simp [looped])
  have e20 : st.div 20 = 2 := by have := hb 20; omega
  have h21 := (hs 21 (by decide) : ∀ v ∈ [20, 94], looped.kind v ≠ .label →
    st.div v ≤ st.div 21) 20 (by simp) (by simp [looped])
  exact ⟨st, h, e40, e20, by have := hb 21; omega⟩

end Verif.Divergence
