import Verif.DeadBranch.Live

/-!
# Lemmas: runs with the new terminators (C74)
-/

set_option linter.unusedSimpArgs false
set_option linter.unusedVariables false
set_option linter.unusedSectionVars false

namespace Verif.DeadBranch.Spec
open Verif.IfConv Verif.CodeSink Verif.CodeSink.Spec
open Verif.IfConv.Spec hiding Valid Right

variable {V M : Type} {S : Sem V M} {num : V → Nat} {fn : Fn} {A : Info}

/-- Constants have their values. -/
structure Good (S : Sem V M) (num : V → Nat) (A : Info) (e : Env V) : Prop where
  cond : ∀ n d k, constCond A.kind n d = some k → ∀ v, e d = some v → S.truth v = k
  int : ∀ d n, A.int d = some n → ∀ v, e d = some v → num v = n

theorem Means.start (h : Means S num fn A) : Good S num A S.start where
  cond n d k hk v hv := by
    cases n with
    | zero => cases hk
    | succ n =>
      simp only [constCond] at hk
      split at hk
      · rename_i e; cases hk; exact (h.no d e).2 v hv
      · rename_i e; cases hk; exact (h.yes d e).2 v hv
      · rename_i x e; rw [(h.neg d x e).1] at hv; cases hv
      · cases hk
  int d n e v hv := (h.int d n e).2 v hv

theorem Means.exec (h : Means S num fn A) {b} : ∀ {is : List Inst} {e e' : Env V} {m m' : M},
    (∀ i ∈ is, i ∈ (fn.block b).body) → Good S num A e → Exec S is e m e' m' → Good S num A e' := by
  have key : ∀ (i : Inst) (e : Env V) (x : V), i ∈ (fn.block b).body → Good S num A e →
      (∀ y, i = .op (instId i) [y] → ∃ w m m1, e y = some w ∧ S.act (instId i) [w] m x m1) →
      Good S num A (define e (instId i) x) := by
    intro i e x hi hg hop
    have hdef : instId i ∈ defs (fn.block b) := List.mem_append_right _ (List.mem_map.2 ⟨i, hi, rfl⟩)
    constructor
    · intro n d k hk v hv
      simp only [define] at hv
      split at hv
      · rename_i hd
        subst hd
        cases hv
        cases n with
        | zero => cases hk
        | succ n =>
          simp only [constCond] at hk
          split at hk
          · rename_i he; exact absurd hdef ((h.no _ he).1 b)
          · rename_i he; exact absurd hdef ((h.yes _ he).1 b)
          · rename_i y he
            obtain ⟨_, _, h3, h4⟩ := h.neg _ y he
            have hi' := h3 b i hi rfl
            obtain ⟨k', hk', rfl⟩ := Option.map_eq_some_iff.1 hk
            obtain ⟨w, m, m1, hy, ha⟩ := hop y hi'
            rw [h4 w m x m1 ha, hg.cond n y k' hk' w hy]
          · cases hk
      · exact hg.cond n d k hk v hv
    · intro d n hn v hv
      simp only [define] at hv
      split at hv
      · rename_i hd
        subst hd
        exact absurd hdef ((h.int _ n hn).1 b)
      · exact hg.int d n hn v hv
  intro is e e' m m' hm hg hx
  induction hx with
  | nil => exact hg
  | @op i ops is e m xs x m1 e2 m2 hr ha _ ih =>
    refine ih (fun j hj => hm j (List.mem_cons_of_mem _ hj)) (key (.op i ops) e x (hm _ (by simp)) hg ?_)
    intro y hy
    simp only [instId, Inst.op.injEq, true_and] at hy
    subst hy
    match xs, hr, ha with
    | [], hr, _ => simp [Reads] at hr
    | [w], hr, ha => exact ⟨w, m, m1, by simpa [Reads] using hr, ha⟩
    | _ :: _ :: _, hr, _ => simp [Reads] at hr
  | @select i c t f is e m vc vt vf e2 m2 _ _ _ _ ih =>
    refine ih (fun j hj => hm j (List.mem_cons_of_mem _ hj)) (key (.select i c t f) e _ (hm _ (by simp)) hg ?_)
    intro y hy
    simp [instId] at hy

theorem Means.phi (h : Means S num fn A) {b p} {e : Env V} (hg : Good S num A e) :
    Good S num A (phiEnv e p (fn.block b).phis) where
  cond n d k hk v hv := by
    by_cases hd : d ∈ (fn.block b).phis.map Phi.id
    · cases n with
      | zero => cases hk
      | succ n =>
        simp only [constCond] at hk
        split at hk
        · rename_i he; exact absurd (List.mem_append_left _ hd) ((h.no _ he).1 b)
        · rename_i he; exact absurd (List.mem_append_left _ hd) ((h.yes _ he).1 b)
        · rename_i y he; exact absurd hd ((h.neg _ y he).2.1 b)
        · cases hk
    · rw [phiEnv_same d hd] at hv
      exact hg.cond n d k hk v hv
  int d n hn v hv := by
    by_cases hd : d ∈ (fn.block b).phis.map Phi.id
    · exact absurd (List.mem_append_left _ hd) ((h.int _ n hn).1 b)
    · rw [phiEnv_same d hd] at hv
      exact hg.int d n hn v hv

theorem Means.good (h : Means S num fn A) {l} {c : Config V M} (hr : Reach S fn l c) : Good S num A c.env := by
  induction hr with
  | start hb => exact h.exec (b := fn.entry) (fun _ hi => hi) h.start hb.2
  | step _ hs ih =>
    cases hs with
    | mk hg hφ hx => exact h.exec (fun _ hi => hi) (h.phi ih) hx

theorem read_some (hv : Valid S fn) {l} {c : Config V M} (hr : Reach S fn l c) {x}
    (hx : x ∈ termReads (fn.block c.block).term) : ∃ v, c.env x = some v := by
  refine Option.ne_none_iff_exists'.1 (hr.defined hv.toValid x ?_)
  obtain ⟨hp, l', rfl⟩ := hr.path
  rcases hv.term _ x hx with ⟨h1, _⟩ | ⟨b, h1, h2⟩
  · exact .inl h1
  · exact .inr ⟨b, h2 l' hp, h1⟩

/-- A simplified branch goes where the branch went. -/
theorem Means.goes (h : Means S num fn A) (hv : Valid S fn) {l} {c : Config V M} (hr : Reach S fn l c) (y : Lab) :
    Goes S c.env c.mem (newTerm fn A c.block) y ↔ Goes S c.env c.mem (fn.block c.block).term y := by
  have hg := h.good hr
  unfold newTerm
  cases ht : target fn A c.block with
  | none => exact Iff.rfl
  | some t =>
    have hl : liveLab fn A c.block = some t := by
      unfold target at ht
      split at ht
      · cases ht
      · exact ht
    have hread := fun x => read_some hv hr (x := x)
    unfold liveLab at hl
    cases hT : (fn.block c.block).term with
    | br z => rw [hT] at hl; cases hl
    | cond k T F =>
      rw [hT] at hl hread
      obtain ⟨q, hq, rfl⟩ := Option.map_eq_some_iff.1 hl
      obtain ⟨v, hv'⟩ := hread k (by simp [termReads])
      have := hg.cond _ _ _ hq v hv'
      subst this
      constructor
      · intro h; cases h; exact .cond hv'
      · intro h
        cases h with
        | cond h => rw [hv'] at h; cases h; exact .br
    | multi g ops ts =>
      rw [hT] at hl hread
      simp only at hl
      split at hl
      · rename_i ls x d cs hls
        obtain ⟨n, hn, rfl⟩ := Option.map_eq_some_iff.1 hl
        obtain ⟨x', d', cs', e1, e2, _, hj⟩ := h.switch _ ls g _ _ hls hT
        cases e1; cases e2
        obtain ⟨v, hv'⟩ := hread x (by simp [termReads])
        have hnv := hg.int _ _ hn v hv'
        subst hnv
        have hmem : pick (num v) d (ls.zip cs) ∈ d :: cs := by
          rcases pick_mem (num v) d (ls.zip cs) with h | h
          · rw [h]; simp
          · refine List.mem_cons_of_mem _ ?_
            obtain ⟨y, h1, h2⟩ := List.mem_map.1 h
            rw [← h2]
            exact (List.of_mem_zip h1).2
        have hjmp : S.jump g [v] c.mem (pick (num v) d (ls.zip cs)) := by rw [hj, pick_lookup]
        have huse : ∀ {xs y}, Reads c.env [x] xs → S.jump g xs c.mem y → y = pick (num v) d (ls.zip cs) := by
          intro xs y h1 h2
          have : xs = [v] := by
            have := h1.symm.trans (show [x].map c.env = [v].map some by simp [hv'])
            exact (List.map_inj_right (by simp)).1 this
          subst this
          rw [pick_lookup]
          exact (hj v _ y).1 h2
        have hrd : Reads c.env [x] [v] := by simp [Reads, hv']
        simp only
        split
        · constructor
          · intro h'
            cases h' with
            | multi h1 h2 h3 => rw [huse h1 h2]; exact .multi hrd hjmp hmem
          · intro h'
            cases h' with
            | multi h1 h2 h3 => rw [huse h1 h2]; exact .multi hrd hjmp (by simp)
        · constructor
          · intro h'; cases h'; exact .multi hrd hjmp hmem
          · intro h'
            cases h' with
            | multi h1 h2 h3 => rw [huse h1 h2]; exact .br
      · cases hl

theorem simp_phis (b : Lab) : ((simplified fn A).block b).phis = (fn.block b).phis := by
  simp only [simplified]; split <;> rfl

theorem simp_body (b : Lab) : ((simplified fn A).block b).body = (fn.block b).body := by
  simp only [simplified]; split <;> rfl

theorem simp_term {b : Lab} (h : b ∈ live fn A) : ((simplified fn A).block b).term = newTerm fn A b := by
  simp only [simplified, if_pos h]

/-- The new terminators change no run. -/
theorem Means.runs (h : Means S num fn A) (hv : Valid S fn) {l} {c : Config V M} :
    (Reach S fn l c → Reach S (simplified fn A) l c ∧ c.block ∈ live fn A) ∧
    (Reach S (simplified fn A) l c → Reach S fn l c ∧ c.block ∈ live fn A) := by
  obtain ⟨h0, hcl, _⟩ := live_iff (A := A) hv.labels
  have hnext : ∀ {b y : Lab} {e : Env V} {m : M}, b ∈ live fn A → Goes S e m (newTerm fn A b) y → y ∈ live fn A := by
    intro b y e m hb hg
    exact hcl b hb y (by have := hg.succ; rwa [newTerm_succs] at this)
  constructor
  · intro hr
    induction hr with
    | start hb =>
      refine ⟨.start (fn := simplified fn A) ⟨hb.1, ?_⟩, by rw [hb.1]; exact h0⟩
      show Exec S ((simplified fn A).block fn.entry).body _ _ _ _
      rw [simp_body]; exact hb.2
    | @step l c c' hr hs ih =>
      obtain ⟨ih, hlive⟩ := ih
      cases hs with
      | @mk p e m y e' m' hg hφ hx =>
        have hg' := (h.goes hv hr y).2 hg
        refine ⟨.step (c' := ⟨y, e', m'⟩) ih (.mk ?_ ?_ ?_), hnext hlive hg'⟩
        · rw [simp_term hlive]; exact hg'
        · rw [simp_phis]; exact hφ
        · rw [simp_phis, simp_body]; exact hx
  · intro hr
    induction hr with
    | @start c hb =>
      have h2 : Exec S ((simplified fn A).block fn.entry).body S.start S.mem c.env c.mem := hb.2
      rw [simp_body] at h2
      refine ⟨.start (fn := fn) ⟨hb.1, h2⟩, ?_⟩
      rw [hb.1]; exact h0
    | @step l c c' hr hs ih =>
      obtain ⟨ih, hlive⟩ := ih
      cases hs with
      | @mk p e m y e' m' hg hφ hx =>
        rw [simp_term hlive] at hg
        rw [simp_phis] at hφ hx
        rw [simp_body] at hx
        exact ⟨.step (c' := ⟨y, e', m'⟩) ih (.mk ((h.goes hv ih y).1 hg) hφ hx), hnext hlive hg⟩

end Verif.DeadBranch.Spec
