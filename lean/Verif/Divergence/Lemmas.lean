import Verif.Divergence.Spec
import Verif.Divergence.Engine
set_option linter.unusedSimpArgs false
set_option linter.unusedVariables false
set_option linter.unusedSectionVars false
/-!
# Lemmas about the divergence analysis
-/
namespace Verif.Divergence
open Verif.DataFlow Verif.ControlDep Spec

theorem set_self (g : Nat → Nat) (i v : Nat) : set g i v i = v := by simp [set]
theorem set_other (g : Nat → Nat) {i j : Nat} (v : Nat) (h : j ≠ i) : set g i v j = g j := by
  simp [set, h]

/-! ### only the levels count -/

theorem blockStep_div (f : Fn) (i : Nat) {s t : St} (d : Dep Nat) (h : s.div = t.div) :
    (blockStep f i s d).div = (blockStep f i t d).div := by
  unfold blockStep
  split
  · exact h
  · rw [h]
    split
    · rfl
    · dsimp only
      split <;> simp [h]

theorem fold_div (f : Fn) (i : Nat) (ds : List (Dep Nat)) : ∀ {s t : St}, s.div = t.div →
    (ds.foldl (blockStep f i) s).div = (ds.foldl (blockStep f i) t).div := by
  induction ds with
  | nil => intro s t h; exact h
  | cons d ds ih => intro s t h; exact ih (blockStep_div f i d h)

theorem computeInst_div (f : Fn) (i : Nat) {s t : St} (h : s.div = t.div) :
    (computeInst f i s).div = (computeInst f i t).div := by
  unfold computeInst
  split <;> simp [h]

theorem visit_div (f : Fn) (i : Nat) {s t : St} (h : s.div = t.div) :
    (visit f i s).1.div = (visit f i t).1.div ∧ (visit f i s).2 = (visit f i t).2 := by
  unfold visit
  split
  · unfold visitBlock
    rw [h]
    split
    · exact ⟨h, rfl⟩
    · split
      · exact ⟨h, rfl⟩
      · dsimp only
        rw [fold_div f i _ h]
        exact ⟨rfl, rfl⟩
  · exact ⟨h, rfl⟩
  · exact ⟨h, rfl⟩
  · rw [h]
    split
    · exact ⟨h, rfl⟩
    · dsimp only
      rw [computeInst_div f i h]
      exact ⟨rfl, rfl⟩

def lift (x : Nat → Nat) : St := ⟨x, fun _ => 0, fun _ => 0⟩

/-- The analysis of the levels alone. -/
def levels (f : Fn) : Analysis (Nat → Nat) Nat where
  init := fun first => if first then f.init else []
  succs := fun i _ => succs f i
  visit := fun i x => ((visit f i (lift x)).1.div, (visit f i (lift x)).2)

/-! ### blocks -/

theorem promote_zero (f : Fn) (d : Dep Nat) : promote f d 0 = 0 := by unfold promote; simp

theorem promote_le (f : Fn) (d : Dep Nat) {l : Nat} (h : l ≤ 2) : promote f d l ≤ 2 := by
  unfold promote; split <;> (try split) <;> omega

theorem blockStep_other (f : Fn) (i : Nat) (st : St) (d : Dep Nat) {j : Nat} (h : j ≠ i) :
    (blockStep f i st d).div j = st.div j := by
  unfold blockStep
  split
  · rfl
  · split
    · exact set_other _ _ h
    · dsimp only
      split
      · exact set_other _ _ h
      · rfl

theorem blockStep_up (f : Fn) (i : Nat) (st : St) (d : Dep Nat) :
    st.div i ≤ (blockStep f i st d).div i := by
  unfold blockStep
  split
  · exact Nat.le_refl _
  · split
    · rename_i h
      simp only [set_self]
      exact Nat.le_of_lt h
    · dsimp only
      split
      · rename_i h
        simp only [set_self]
        exact Nat.le_of_lt h
      · exact Nat.le_refl _

theorem blockStep_done (f : Fn) (i : Nat) (st : St) (d : Dep Nat) {s : Nat} (hs : d.source = some s) :
    st.div s ≤ (blockStep f i st d).div i ∧
      ((s = i ∨ st.div s = 0) → promote f d (st.div (f.cond s)) ≤ (blockStep f i st d).div i) := by
  unfold blockStep
  rw [hs]
  dsimp only
  split
  · rename_i h
    simp only [set_self]
    refine ⟨Nat.le_refl _, ?_⟩
    rintro (e | e)
    · subst e; exact absurd h (Nat.lt_irrefl _)
    · omega
  · rename_i h
    split
    · rename_i h2
      simp only [set_self]
      exact ⟨by omega, fun _ => Nat.le_refl _⟩
    · rename_i h2
      exact ⟨by omega, fun _ => by omega⟩

theorem fold_spec (f : Fn) (i : Nat) : ∀ (ds : List (Dep Nat)) (st : St),
    (∀ j, j ≠ i → (ds.foldl (blockStep f i) st).div j = st.div j) ∧
    st.div i ≤ (ds.foldl (blockStep f i) st).div i ∧
    ∀ d ∈ ds, ∀ s, d.source = some s →
      (s ≠ i → st.div s ≤ (ds.foldl (blockStep f i) st).div i) ∧
      (f.cond s ≠ i → (s = i ∨ st.div s = 0) →
        promote f d (st.div (f.cond s)) ≤ (ds.foldl (blockStep f i) st).div i) := by
  intro ds
  induction ds with
  | nil => intro st; exact ⟨fun _ _ => rfl, Nat.le_refl _, by simp⟩
  | cons d ds ih =>
    intro st
    obtain ⟨h1, h2, h3⟩ := ih (blockStep f i st d)
    simp only [List.foldl_cons]
    refine ⟨fun j hj => by rw [h1 j hj, blockStep_other f i st d hj],
      Nat.le_trans (blockStep_up f i st d) h2, ?_⟩
    intro e he s hs
    rcases List.mem_cons.1 he with rfl | he
    · obtain ⟨k1, k2⟩ := blockStep_done f i st e hs
      exact ⟨fun _ => Nat.le_trans k1 h2, fun _ hz => Nat.le_trans (k2 hz) h2⟩
    · obtain ⟨k1, k2⟩ := h3 e he s hs
      constructor
      · intro hsi
        rw [← blockStep_other f i st d hsi]
        exact k1 hsi
      · intro hc hz
        rw [← blockStep_other f i st d hc]
        refine k2 hc ?_
        by_cases hsi : s = i
        · exact Or.inl hsi
        · rcases hz with hz | hz
          · exact Or.inl hz
          · exact Or.inr (by rw [blockStep_other f i st d hsi]; exact hz)

/-- Levels that have a reason, and are levels. -/
def Sane (f : Fn) (x : Nat → Nat) : Prop := ∀ j, x j ≤ 2 ∧ (0 < x j → Flows f j (x j))

theorem sane_set {f : Fn} {x : Nat → Nat} (h : Sane f x) {i v : Nat} (h2 : v ≤ 2)
    (hf : 0 < v → Flows f i v) : Sane f (set x i v) := by
  intro j
  by_cases hj : j = i
  · subst hj; rw [set_self]; exact ⟨h2, hf⟩
  · rw [set_other _ _ hj]; exact h j

theorem fold_sane {f : Fn} {i : Nat} (hk : f.kind i = .label) : ∀ (ds : List (Dep Nat)) (st : St),
    (∀ d ∈ ds, d ∈ f.cdg.rev.get (some i)) → Sane f st.div →
    Sane f (ds.foldl (blockStep f i) st).div := by
  intro ds
  induction ds with
  | nil => intro st _ h; exact h
  | cons d ds ih =>
    intro st hd h
    refine ih _ (fun e he => hd e (List.mem_cons_of_mem _ he)) ?_
    unfold blockStep
    split
    · exact h
    · rename_i s hs
      split
      · exact sane_set h (h s).1 (fun hp => .control hk (hd d (by simp)) hs ((h s).2 hp))
      · dsimp only
        split
        · rename_i hl
          refine sane_set h (promote_le f d (h _).1) ?_
          intro hp
          have hc : 0 < st.div (f.cond s) := by
            rcases Nat.eq_zero_or_pos (st.div (f.cond s)) with e | e
            · rw [e, promote_zero] at hp; exact absurd hp (Nat.lt_irrefl _)
            · exact e
          exact .branch hk (hd d (by simp)) hs ((h _).2 hc)
        · exact h

/-! ### operands -/

theorem opFold (div : Nat → Nat) (ins : List Nat) : ∀ acc : Nat × Option Nat,
    let r := ins.foldl (fun acc v => if div v > acc.1 then (div v, some v) else acc) acc
    acc.1 ≤ r.1 ∧ (∀ v ∈ ins, div v ≤ r.1) ∧ (r = acc ∨ ∃ v ∈ ins, r = (div v, some v) ∧ acc.1 < div v) := by
  induction ins with
  | nil => intro acc; exact ⟨Nat.le_refl _, by simp, Or.inl rfl⟩
  | cons a ins ih =>
    intro acc
    simp only [List.foldl_cons]
    by_cases h : div a > acc.1
    · rw [if_pos h]
      obtain ⟨h1, h2, h3⟩ := ih (div a, some a)
      refine ⟨by simp only at h1; omega, ?_, ?_⟩
      · intro v hv
        rcases List.mem_cons.1 hv with rfl | hv
        · exact h1
        · exact h2 v hv
      · rcases h3 with h3 | ⟨v, hv, h3, h4⟩
        · exact Or.inr ⟨a, by simp, h3, h⟩
        · exact Or.inr ⟨v, by simp [hv], h3, by simp only at h4; omega⟩
    · rw [if_neg h]
      obtain ⟨h1, h2, h3⟩ := ih acc
      refine ⟨h1, ?_, ?_⟩
      · intro v hv
        rcases List.mem_cons.1 hv with rfl | hv
        · omega
        · exact h2 v hv
      · rcases h3 with h3 | ⟨v, hv, h3, h4⟩
        · exact Or.inl h3
        · exact Or.inr ⟨v, by simp [hv], h3, h4⟩

theorem opLoop_ge (div : Nat → Nat) (ins : List Nat) {v : Nat} (h : v ∈ ins) :
    div v ≤ (opLoop div ins).1 := (opFold div ins (0, none)).2.1 v h

theorem opLoop_from (div : Nat → Nat) (ins : List Nat) :
    opLoop div ins = (0, none) ∨
      ∃ v ∈ ins, opLoop div ins = (div v, some v) ∧ 0 < div v := (opFold div ins (0, none)).2.2

theorem opLoop_mono {x y : Nat → Nat} (ins : List Nat) (h : ∀ j, x j ≤ y j) :
    (opLoop x ins).1 ≤ (opLoop y ins).1 := by
  rcases opLoop_from x ins with e | ⟨v, hv, e, _⟩
  · rw [e]; exact Nat.zero_le _
  · rw [e]
    exact Nat.le_trans (h v) (opLoop_ge y ins hv)

theorem varLevel_le (v : Var) : varLevel v ≤ 2 := by
  unfold varLevel
  split <;> (try split) <;> omega

/-! ### a visit -/

/-- What holds of the levels all the time. -/
structure Inv (f : Fn) (all : List Nat) (x : Nat → Nat) : Prop where
  sane : Sane f x
  op : ∀ i ins, f.kind i = .op ins → x i ≤ (opLoop x ins).1
  load : ∀ i v, f.kind i = .load (some v) → x i ≤ varLevel v
  out : ∀ i, i ∉ all → x i = 0

/-- A visit raises the level of the instruction visited, or does nothing. -/
theorem visit_shape {f : Fn} {all : List Nat} {x : Nat → Nat} (hx : Inv f all x) (i : Nat) :
    (∀ j, j ≠ i → (visit f i (lift x)).1.div j = x j) ∧
    x i ≤ (visit f i (lift x)).1.div i ∧
    Sane f (visit f i (lift x)).1.div ∧
    ((∃ b, f.kind i = .term b) ∧ (visit f i (lift x)).2 = true ∧ (visit f i (lift x)).1.div = x ∨
      (∀ b, f.kind i ≠ .term b) ∧
        ((visit f i (lift x)).2 = true ↔ x i < (visit f i (lift x)).1.div i)) := by
  unfold visit
  cases hk : f.kind i with
  | label =>
    dsimp only
    unfold visitBlock
    split
    · exact ⟨fun _ _ => rfl, Nat.le_refl _, hx.sane, Or.inr ⟨by simp, by simp [lift]⟩⟩
    · split
      · exact ⟨fun _ _ => rfl, Nat.le_refl _, hx.sane, Or.inr ⟨by simp, by simp [lift]⟩⟩
      · obtain ⟨h1, h2, h3⟩ := fold_spec f i (f.cdg.rev.get (some i)) (lift x)
        refine ⟨h1, h2, fold_sane hk _ (lift x) (fun _ h => h) hx.sane, Or.inr ⟨by simp, ?_⟩⟩
        simp [lift]
  | term b => exact ⟨fun _ _ => rfl, Nat.le_refl _, hx.sane, Or.inl ⟨⟨b, rfl⟩, rfl, rfl⟩⟩
  | void => exact ⟨fun _ _ => rfl, Nat.le_refl _, hx.sane, Or.inr ⟨by simp, by simp [lift]⟩⟩
  | param =>
    dsimp only
    split
    · exact ⟨fun _ _ => rfl, Nat.le_refl _, hx.sane, Or.inr ⟨by simp, by simp [lift]⟩⟩
    · simp only [computeInst, hk]
      refine ⟨fun j hj => set_other _ _ hj, by rw [set_self]; exact (hx.sane i).1,
        sane_set hx.sane (by omega) (fun _ => .param hk), Or.inr ⟨by simp, ?_⟩⟩
      simp [lift, set_self]
  | load v =>
    dsimp only
    split
    · exact ⟨fun _ _ => rfl, Nat.le_refl _, hx.sane, Or.inr ⟨by simp, by simp [lift]⟩⟩
    · cases v with
      | none =>
        simp only [computeInst, hk]
        refine ⟨fun j hj => set_other _ _ hj, by rw [set_self]; exact (hx.sane i).1,
          sane_set hx.sane (by omega) (fun _ => .unknown hk), Or.inr ⟨by simp, ?_⟩⟩
        simp [lift, set_self]
      | some v =>
        simp only [computeInst, hk]
        refine ⟨fun j hj => set_other _ _ hj, by rw [set_self]; exact hx.load i v hk,
          sane_set hx.sane (varLevel_le v) (fun _ => .load hk), Or.inr ⟨by simp, ?_⟩⟩
        simp [lift, set_self]
  | op ins =>
    dsimp only
    split
    · exact ⟨fun _ _ => rfl, Nat.le_refl _, hx.sane, Or.inr ⟨by simp, by simp [lift]⟩⟩
    · simp only [computeInst, hk]
      refine ⟨fun j hj => set_other _ _ hj, by rw [set_self]; exact hx.op i ins hk, ?_,
        Or.inr ⟨by simp, ?_⟩⟩
      · rcases opLoop_from x ins with e | ⟨v, hv, e, hp⟩
        · refine sane_set hx.sane (by show (opLoop x ins).1 ≤ 2; rw [e]; exact Nat.zero_le _) ?_
          intro hp
          exact absurd hp (by show ¬ 0 < (opLoop x ins).1; rw [e]; exact Nat.lt_irrefl _)
        · have e1 : (opLoop (lift x).div ins).1 = x v := by show (opLoop x ins).1 = _; rw [e]
          rw [e1]
          exact sane_set hx.sane (hx.sane v).1 (fun _ => .operand hk hv ((hx.sane v).2 hp))
      · simp [lift, set_self]

theorem visit_up {f : Fn} {all : List Nat} {x : Nat → Nat} (hx : Inv f all x) (i j : Nat) :
    x j ≤ (visit f i (lift x)).1.div j := by
  obtain ⟨h1, h2, -⟩ := visit_shape hx i
  by_cases hj : j = i
  · subst hj; exact h2
  · rw [h1 j hj]; exact Nat.le_refl _

theorem visit_inv {f : Fn} {all : List Nat} {x : Nat → Nat} (hx : Inv f all x) {i : Nat}
    (hi : i ∈ all) : Inv f all (visit f i (lift x)).1.div := by
  obtain ⟨h1, h2, h3, -⟩ := visit_shape hx i
  refine ⟨h3, ?_, ?_, ?_⟩
  · intro j ins hk
    by_cases hj : j = i
    · subst hj
      refine Nat.le_trans ?_ (opLoop_mono ins (visit_up hx j))
      have : (visit f j (lift x)).1.div j = x j ∨
          (visit f j (lift x)).1.div j = (opLoop x ins).1 := by
        unfold visit
        rw [hk]
        dsimp only
        split
        · exact Or.inl rfl
        · right
          simp only [computeInst, hk]
          rw [set_self]
          rfl
      rcases this with e | e
      · rw [e]; exact hx.op j ins hk
      · rw [e]; exact Nat.le_refl _
    · rw [h1 j hj]
      exact Nat.le_trans (hx.op j ins hk) (opLoop_mono ins (visit_up hx i))
  · intro j v hk
    by_cases hj : j = i
    · subst hj
      unfold visit
      rw [hk]
      dsimp only
      split
      · exact hx.load j v hk
      · simp only [computeInst, hk]
        rw [set_self]
        exact Nat.le_refl _
    · rw [h1 j hj]; exact hx.load j v hk
  · intro j hj
    rw [h1 j (fun e => hj (e ▸ hi))]
    exact hx.out j hj

theorem inv_zero (f : Fn) (all : List Nat) : Inv f all (fun _ => 0) :=
  ⟨fun _ => ⟨by omega, fun h => absurd h (Nat.lt_irrefl _)⟩, fun _ _ _ => Nat.zero_le _,
    fun _ _ _ => Nat.zero_le _, fun _ _ => rfl⟩

theorem mem_targets {f : Fn} {b : Nat} {d : Dep Nat} (h : d ∈ f.cdg.fwd.get (some b)) :
    d.target ∈ targets f b := by
  unfold targets
  have : f.cdg.hasBlock (some b) = true := by
    unfold Cdg.hasBlock
    unfold DepMap.get at h
    cases hq : f.cdg.fwd (some b) with
    | none => rw [hq] at h; simp at h
    | some l => rfl
  rw [this]
  simp only [Bool.not_true, Bool.false_eq_true, if_false]
  exact List.mem_map.2 ⟨d, h, rfl⟩

theorem targets_mem {f : Fn} {b j : Nat} (h : j ∈ targets f b) :
    ∃ d ∈ f.cdg.fwd.get (some b), d.target = j := by
  unfold targets at h
  split at h
  · simp at h
  · exact List.mem_map.1 h

theorem converges {f : Fn} {all : List Nat} (ok : Spec.Ok f all) :
    DataFlow.Spec.Converges (levels f) (· ∈ all) (Inv f all)
      (fun x y => potential all id 2 x < potential all id 2 y) (fun i => ∃ b, f.kind i = .term b) := by
  refine ⟨(measure (potential all id 2)).wf, ?_, ?_, fun i x hi hx => visit_inv hx hi, ?_, ?_, ?_⟩
  · intro b i hi
    cases b with
    | true => exact ok.init i hi
    | false => simp [levels] at hi
  · intro i x hi _ j hj
    have hj : j ∈ succs f i := hj
    unfold succs at hj
    split at hj
    · obtain ⟨d, hd, rfl⟩ := targets_mem hj
      exact (ok.target _ d hd).2
    · rcases List.mem_append.1 hj with hj | hj
      · exact ok.phis i hi j hj
      · obtain ⟨d, hd, rfl⟩ := targets_mem hj
        exact (ok.target _ d hd).2
    · exact ok.users i hi j hj
  · intro i x hi hx hf
    have hf : (visit f i (lift x)).2 = false := hf
    obtain ⟨h1, h2, h3, h4⟩ := visit_shape hx i
    show (visit f i (lift x)).1.div = x
    rcases h4 with ⟨_, h, _⟩ | ⟨_, h⟩
    · rw [hf] at h; exact absurd h (by simp)
    · rw [hf] at h
      have hn : ¬ x i < (visit f i (lift x)).1.div i := fun hh => by simpa using h.2 hh
      funext j
      by_cases hj : j = i
      · subst hj; omega
      · exact h1 j hj
  · intro i x hi hx hc
    have hc : (visit f i (lift x)).2 = true := hc
    obtain ⟨h1, h2, h3, h4⟩ := visit_shape hx i
    rcases h4 with ⟨⟨b, hb⟩, _, h⟩ | ⟨_, h⟩
    · right
      refine ⟨h, ⟨b, hb⟩, ?_⟩
      intro j hj
      have hj : j ∈ succs f i := hj
      unfold succs at hj
      rw [hb] at hj
      obtain ⟨d, hd, rfl⟩ := targets_mem hj
      rintro ⟨c, hc⟩
      rw [(ok.target _ d hd).1] at hc
      simp at hc
    · left
      have hlt := h.1 hc
      have : (visit f i (lift x)).1.div =
          fun j => if j = i then (visit f i (lift x)).1.div i else x j := by
        funext j
        by_cases hj : j = i
        · subst hj; simp
        · rw [h1 j hj]; simp [hj]
      show potential all id 2 (visit f i (lift x)).1.div < _
      rw [this]
      have hb : ∀ y : Nat → Nat, (∀ j, y j ≤ 2) → potential all id 2 y =
          potential all (fun a => min a 2) 2 y := by
        intro y hy
        unfold potential
        congr 1
        apply List.map_congr_left
        intro j _
        have := hy j
        simp only [id]
        omega
      rw [hb _ (by intro j; split; exact (h3 i).1; exact (hx.sane j).1),
        hb _ (fun j => (hx.sane j).1)]
      refine potential_lt (fun a => Nat.min_le_right _ _) hi ?_
      have := (h3 i).1
      show min (x i) 2 < min _ 2
      omega
  · intro i hi
    simp [levels] at hi

/-! ### what is reached -/

/-- A terminator to be visited leads to its dependents. -/
def Leads (f : Fn) (k j : Nat) : Prop :=
  ∃ s d, f.kind k = .term s ∧ d ∈ f.cdg.rev.get (some j) ∧ d.source = some s

theorem after_visit {f : Fn} {all : List Nat} (ok : Spec.Ok f all) {x : Nat → Nat}
    (hx : Inv f all x) (i : Nat) : Settled f (visit f i (lift x)).1.div i := by
  have h3 := (visit_shape hx i).2.2.1
  unfold Settled
  cases hk : f.kind i with
  | label =>
    dsimp only
    intro d hd s hs hb
    unfold visit visitBlock
    rw [hk]
    simp only [hb, Bool.not_true, Bool.false_eq_true, if_false]
    split
    · rename_i h2
      have h2 : x i = 2 := h2
      show x s ≤ x i ∧ (x s = 0 → promote f d (x (f.cond s)) ≤ x i)
      rw [h2]
      exact ⟨(hx.sane s).1, fun _ => promote_le f d (hx.sane _).1⟩
    · obtain ⟨h1, h2, h3⟩ := fold_spec f i (f.cdg.rev.get (some i)) (lift x)
      obtain ⟨k1, k2⟩ := h3 d hd s hs
      dsimp only
      have hci : f.cond s ≠ i := fun e => (ok.branch i d s hd hs).2.1 (e ▸ hk)
      constructor
      · by_cases hsi : s = i
        · rw [hsi]; exact Nat.le_refl _
        · rw [h1 s hsi]; exact k1 hsi
      · intro hz
        rw [h1 _ hci]
        refine k2 hci ?_
        by_cases hsi : s = i
        · exact Or.inl hsi
        · rw [h1 s hsi] at hz; exact Or.inr hz
  | term b => trivial
  | void => trivial
  | param =>
    dsimp only
    unfold visit
    rw [hk]
    dsimp only
    split
    · assumption
    · simp [computeInst, hk, set_self]
  | load v =>
    cases v with
    | none =>
      dsimp only
      unfold visit
      rw [hk]
      dsimp only
      split
      · assumption
      · simp [computeInst, hk, set_self]
    | some v =>
      dsimp only
      unfold visit
      rw [hk]
      dsimp only
      split
      · rename_i h2
        have h2 : x i = 2 := h2
        have := hx.load i v hk
        have := varLevel_le v
        show x i = _
        omega
      · simp [computeInst, hk, set_self]
  | op ins =>
    dsimp only
    intro v hv hvk
    unfold visit at h3 ⊢
    rw [hk] at h3 ⊢
    dsimp only at h3 ⊢
    split
    · rename_i h2
      have h2 : x i = 2 := h2
      show x v ≤ x i
      rw [h2]
      exact (hx.sane v).1
    · simp only [computeInst, hk]
      rw [set_self]
      by_cases hvi : v = i
      · subst hvi
        rw [set_self]
        exact Nat.le_refl _
      · rw [set_other _ _ hvi]
        exact opLoop_ge x ins hv

theorem keep_visit {f : Fn} {all : List Nat} (ok : Spec.Ok f all) {x : Nat → Nat}
    (hx : Inv f all x) {i j : Nat} (hi : i ∈ all) (hj : j ∈ all) (hc : (visit f i (lift x)).2 = true)
    (hji : j ≠ i) (hp : Settled f x j) :
    Settled f (visit f i (lift x)).1.div j ∨ ∃ k ∈ succs f i, k = j ∨ Leads f k j := by
  obtain ⟨h1, h2, -, h4⟩ := visit_shape hx i
  rcases h4 with ⟨_, _, h⟩ | ⟨hnt, h⟩
  · rw [h]; exact Or.inl hp
  generalize hy : (visit f i (lift x)).1.div = y at *
  unfold Settled at hp ⊢
  have hvoid : f.kind i ≠ .void := by
    intro hv
    have : (visit f i (lift x)).2 = false := by unfold visit; rw [hv]
    rw [this] at hc
    simp at hc
  cases hk : f.kind j with
  | label =>
    rw [hk] at hp
    dsimp only at hp ⊢
    by_cases hq : ∃ d ∈ f.cdg.rev.get (some j), ∃ s, d.source = some s ∧ (s = i ∨ f.cond s = i)
    · right
      obtain ⟨d, hd, s, hs, hsi⟩ := hq
      obtain ⟨b1, b2, b3, t, ht, htk⟩ := ok.branch j d s hd hs
      rcases hsi with rfl | rfl
      · refine ⟨j, ?_, Or.inl rfl⟩
        unfold succs
        rw [b1]
        obtain ⟨e1, e2⟩ := ok.same j d s hd hs
        exact List.mem_append.2 (Or.inr (e1 ▸ mem_targets e2))
      · refine ⟨t, ?_, Or.inr ⟨s, d, htk, hd, hs⟩⟩
        unfold succs
        split
        · rename_i c hc'; exact absurd hc' (b3 c)
        · rename_i hc'; exact absurd hc' b2
        · exact ht
    · left
      intro d hd s hs hb
      have hsi : s ≠ i := fun e => hq ⟨d, hd, s, hs, Or.inl e⟩
      have hci : f.cond s ≠ i := fun e => hq ⟨d, hd, s, hs, Or.inr e⟩
      rw [h1 s hsi, h1 j hji, h1 _ hci]
      exact hp d hd s hs hb
  | term b => exact Or.inl trivial
  | void => exact Or.inl trivial
  | param => rw [hk] at hp; dsimp only at hp ⊢; rw [h1 j hji]; exact Or.inl hp
  | load v =>
    cases v with
    | none => rw [hk] at hp; dsimp only at hp ⊢; rw [h1 j hji]; exact Or.inl hp
    | some v => rw [hk] at hp; dsimp only at hp ⊢; rw [h1 j hji]; exact Or.inl hp
  | op ins =>
    rw [hk] at hp
    dsimp only at hp ⊢
    by_cases hq : i ∈ ins ∧ f.kind i ≠ .label
    · right
      refine ⟨j, ?_, Or.inl rfl⟩
      unfold succs
      split
      · rename_i b hb; exact absurd hb (hnt b)
      · rename_i hb; exact absurd hb hq.2
      · exact ok.uses j hj ins hk i hq.1 hq.2
    · left
      intro v hv hvk
      have hvi : v ≠ i := fun e => hq ⟨e ▸ hv, e ▸ hvk⟩
      rw [h1 v hvi, h1 j hji]
      exact hp v hv hvk

/-- The analysis ends, with levels that have a reason and are settled. -/
theorem analyse_levels {f : Fn} {all : List Nat} (ok : Spec.Ok f all) :
    ∃ st c, drain (analysis f) St.new (enqueueAll Work.empty f.init) false =
        some (st, Work.empty, c) ∧ analyse f = some st ∧ Inv f all st.div ∧
      ∀ i ∈ f.init, Settled f st.div i := by
  have H := converges ok
  obtain ⟨x, c, h1, h2, -⟩ := runOnce_spec H (inv_zero f all) true
  have h1' : drain (levels f) (fun _ => 0) (enqueueAll Work.empty f.init) false =
      some (x, Work.empty, c) := h1
  obtain ⟨st, h3, h4⟩ := drain_sim (A := levels f) (A' := analysis f) (p := St.div)
    (fun _ _ => rfl) (fun i s => (visit_div f i (s := s) (t := lift s.div) rfl).1)
    (fun i s => (visit_div f i (s := s) (t := lift s.div) rfl).2) h1' St.new rfl
  have hok := enqueueAll_spec (ok_empty (ι := Nat)) f.init
  have hmem : ∀ i, i ∈ (enqueueAll Work.empty f.init).queue ↔ i ∈ f.init := by
    intro i; rw [hok.2]; simp [Work.empty]
  have hset := drain_settles H (P := fun x i => Settled f x i) (Leads := Leads f)
    (fun i x _ hx => after_visit ok hx i)
    (fun i x j hi hj hx hc hji hp => keep_visit ok hx hi hj hc hji hp)
    (by
      rintro k j x _ ⟨s, d, hk, hd, hs⟩
      refine ⟨by show (visit f k (lift x)).2 = true; unfold visit; rw [hk], ?_⟩
      show j ∈ succs f k
      unfold succs
      rw [hk]
      obtain ⟨e1, e2⟩ := ok.same j d s hd hs
      exact e1 ▸ mem_targets e2)
    h1' (T := (· ∈ f.init)) (fun i hi => ok.init i hi) hok.1
    (enqueueAll_nodup ok_empty (by simp [Work.empty]) _)
    (fun i hi => ok.init i ((hmem i).1 hi)) (inv_zero f all)
    (fun i hi => Or.inr ⟨i, (hmem i).2 hi, Or.inl rfl⟩)
  refine ⟨st, c, h3, run_of_drain rfl h3, ?_, ?_⟩
  · rw [h4]; exact h2
  · rw [h4]; exact hset

end Verif.Divergence
