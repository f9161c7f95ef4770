import Verif.Adce.Memory
/-!
# Executions before and after
-/
set_option linter.unusedSimpArgs false
set_option linter.unusedVariables false
set_option linter.unusedSectionVars false
namespace Verif.Adce
open Spec

variable {D P C E : Type}

def alive (F : Func) (i : Inst) : Bool := F.live.contains (.inst i.id)

/-- A state of the function and a state of what is left of it. -/
inductive Rel (F : Func) : State D P C E → State D P C E → Prop where
  | here {B r env m tr env' m'} : B ∈ F.order → Item.label B.id ∈ F.live → (∀ i ∈ r, i ∈ B.insts) →
      AddrsOk F env → Agree F env env' → Same F m m' →
      Rel F (.run B.id r env m tr) (.run B.id (r.filter (alive F)) env' m' tr)
  /-- inside a dead construct; what is left is about to go to its merge block -/
  | inside {H g B r env m tr env' m'} : H ∈ F.order → H.merge = some g → Item.label H.id ∈ F.live →
      Item.merge H.id ∉ F.live → B ∈ F.order → (H.id = B.id ∧ H.isLoop = true ∨ Inside F H.id B.id) →
      (∀ i ∈ r, i ∈ B.insts) → AddrsOk F env → Agree F env env' → Same F m m' →
      Rel F (.run B.id r env m tr) (.run H.id [] env' m' tr)
  | done {xs m tr m'} : Same F m m' → Rel F (.done xs m tr) (.done xs m' tr)

section
variable {F F' : Func} (hv : Valid F) (hs : Structured F) {S : Sem D P C E} (hf : S.Fits F)
  (hrun : F.run = some F')
include hv

theorem block_unique {A B : Block} (hA : A ∈ F.order) (hB : B ∈ F.order) (e : A.id = B.id) : A = B := by
  have : some A = some B := by rw [← block_eq hv hA, ← block_eq hv hB, e]
  cases this; rfl

/-- The environment after a branch that reaches `T` from `b`. -/
structure Enters (T : Block) (b : Id) (env env' : Env D P) : Prop where
  phi : ∀ p ∈ T.insts, ∀ args, p.kind = .phi args → ∃ o, (o, b) ∈ args ∧ env' p.id = env o
  other : ∀ d, (∀ p ∈ T.insts, isPhi p = true → p.id ≠ d) → env' d = env d

omit hv in
theorem isPhi_iff {p : Inst} : isPhi p = true ↔ ∃ args, p.kind = .phi args := by
  unfold isPhi
  cases p.kind <;> simp

theorem inst_unique {p q : Inst} (hp : p ∈ F.insts) (hq : q ∈ F.insts) (e : p.id = q.id) : p = q := by
  have : some p = some q := by rw [← find_eq hv hp, ← find_eq hv hq, e]
  cases this; rfl

theorem enters_addrs {T : Block} {b : Id} {env env' : Env D P} (hT : T ∈ F.order) (h : Enters T b env env')
    (hp : AddrsOk F env) : AddrsOk F env' := by
  intro d v q hd
  by_cases hphi : ∃ p ∈ T.insts, isPhi p = true ∧ p.id = d
  · obtain ⟨p, hpT, hpp, rfl⟩ := hphi
    obtain ⟨args, hk⟩ := isPhi_iff.1 hpp
    obtain ⟨o, ho, e⟩ := h.phi p hpT args hk
    have hpi := inst_mem hT hpT
    rw [e] at hd
    have hno : F.varOf p.id = none := varOf_other hv hpi (by rw [hk]; simp)
    rcases hp o v q hd with h1 | ⟨h1, _⟩
    · refine absurd (varOf_address h1).1 (hv.phi_ops p hpi args hk o ?_)
      rw [hk]
      exact List.mem_map.2 ⟨(o, b), ho, rfl⟩
    · exact .inr ⟨h1, hno⟩
  · rw [h.other d (by
      intro p hpT hpp e
      exact hphi ⟨p, hpT, hpp, e⟩)] at hd
    exact hp d v q hd

/-- Copy the live phis. -/
theorem enters_fwd {T T' : Block} {b b' : Id} {e₁ e₁' e₂ : Env D P} (hT : T ∈ F.order) (hL : Left F T T')
    (h : Enters T b e₁ e₁') (ha : Agree F e₁ e₂)
    (hb : ∀ p ∈ T.insts, Item.inst p.id ∈ F.live → ∀ args, p.kind = .phi args → ∀ o, (o, b) ∈ args → b = b') :
    ∃ e₂', Enters T' b' e₂ e₂' ∧ Agree F e₁' e₂' := by
  refine ⟨fun d => if T'.insts.any (fun p => isPhi p && p.id == d) then e₁' d else e₂ d, ⟨?_, ?_⟩, ?_⟩
  · intro p hp args hk
    have hp2 := hp
    rw [hL.insts] at hp2
    have hpT := List.mem_filter.1 hp2
    have hpl : Item.inst p.id ∈ F.live := by simpa using hpT.2
    obtain ⟨o, ho, e⟩ := h.phi p hpT.1 args hk
    have := hb p hpT.1 hpl args hk o ho
    subst this
    refine ⟨o, ho, ?_⟩
    have hc : T'.insts.any (fun q => isPhi q && q.id == p.id) = true :=
      List.any_eq_true.2 ⟨p, hp, by simp [isPhi_iff.2 ⟨args, hk⟩]⟩
    simp only [hc, if_true, e]
    exact ha o (live_ops hv (inst_mem hT hpT.1) hpl (by rw [hk]; exact List.mem_map.2 ⟨_, ho, rfl⟩))
  · intro d hd
    have hc : T'.insts.any (fun q => isPhi q && q.id == d) = false := by
      cases hc : T'.insts.any (fun q => isPhi q && q.id == d) with
      | false => rfl
      | true =>
        obtain ⟨p, hp, e⟩ := List.any_eq_true.1 hc
        simp only [Bool.and_eq_true, beq_iff_eq] at e
        exact absurd e.2 (hd p hp e.1)
    simp [hc]
  · intro d hd
    by_cases hc : T'.insts.any (fun q => isPhi q && q.id == d) = true
    · simp only [hc, if_true]
    · simp only [hc, if_false]
      rw [h.other d, ha d hd]
      · rfl
      intro p hp hpp e
      refine hc (List.any_eq_true.2 ⟨p, ?_, by simp [hpp, e]⟩)
      rw [hL.insts]
      exact List.mem_filter.2 ⟨hp, by rw [e]; simpa using hd⟩

/-- What a block left behind does to the environment agrees with what the block does. -/
theorem enters_both {T T' : Block} {b b' : Id} {e₁ e₁' e₂ e₂' : Env D P} (hT : T ∈ F.order)
    (hL : Left F T T') (h : Enters T b e₁ e₁') (h' : Enters T' b' e₂ e₂') (ha : Agree F e₁ e₂)
    (hb : ∀ p ∈ T.insts, Item.inst p.id ∈ F.live → ∀ args, p.kind = .phi args → ∀ o o', (o, b) ∈ args →
      (o', b') ∈ args → o = o') : Agree F e₁' e₂' := by
  intro d hd
  by_cases hphi : ∃ p ∈ T.insts, isPhi p = true ∧ p.id = d
  · obtain ⟨p, hpT, hpp, rfl⟩ := hphi
    obtain ⟨args, hk⟩ := isPhi_iff.1 hpp
    have hpT' : p ∈ T'.insts := by
      rw [hL.insts]
      exact List.mem_filter.2 ⟨hpT, by simpa using hd⟩
    obtain ⟨o, ho, e⟩ := h.phi p hpT args hk
    obtain ⟨o', ho', e'⟩ := h'.phi p hpT' args hk
    have := hb p hpT hd args hk o o' ho ho'
    subst this
    rw [e, e']
    exact ha o (live_ops hv (inst_mem hT hpT) hd (by rw [hk]; exact List.mem_map.2 ⟨_, ho, rfl⟩))
  · rw [h.other d (fun p hp hpp e => hphi ⟨p, hp, hpp, e⟩), h'.other d, ha d hd]
    intro p hp hpp e
    rw [hL.insts] at hp
    exact hphi ⟨p, (List.mem_filter.1 hp).1, hpp, e⟩

/-- Every branch can be entered. -/
theorem enters_exists {B T : Block} (hc : PhisComplete F) (hB : B ∈ F.order) (hT : T ∈ F.order)
    (ht : T.id ∈ B.term.targets) (env : Env D P) : ∃ env', Enters T B.id env env' := by
  refine ⟨fun d => match T.insts.find? (fun p => isPhi p && p.id == d) with
    | some ⟨_, .phi args⟩ => (match args.find? (fun a => a.2 == B.id) with
      | some a => env a.1
      | none => env d)
    | _ => env d, ⟨?_, ?_⟩⟩
  · intro p hp args hk
    have hfind : T.insts.find? (fun q => isPhi q && q.id == p.id) = some p := by
      cases h : T.insts.find? (fun q => isPhi q && q.id == p.id) with
      | none =>
        have := List.find?_eq_none.1 h p hp
        simp [isPhi_iff.2 ⟨args, hk⟩] at this
      | some q =>
        have h1 := List.mem_of_find?_eq_some h
        have h2 := List.find?_some h
        simp only [Bool.and_eq_true, beq_iff_eq] at h2
        rw [inst_unique hv (inst_mem hT h1) (inst_mem hT hp) h2.2]
    obtain ⟨o, ho, hu⟩ := hc B hB T hT ht p hp args hk
    obtain ⟨i, k⟩ := p
    simp only at hk
    subst hk
    simp only at hfind ⊢
    simp only [hfind]
    cases h : args.find? (fun a => a.2 == B.id) with
    | none =>
      have := List.find?_eq_none.1 h _ ho
      simp at this
    | some a =>
      have h1 := List.mem_of_find?_eq_some h
      have h2 := List.find?_some h
      simp only [beq_iff_eq] at h2
      refine ⟨a.1, ?_, rfl⟩
      rw [← h2]
      exact h1
  · intro d hd
    have : T.insts.find? (fun q => isPhi q && q.id == d) = none := by
      rw [List.find?_eq_none]
      intro p hp e
      simp only [Bool.and_eq_true, beq_iff_eq] at e
      exact hd p hp e.1 e.2
    simp only [this]

omit hv in
theorem goes_target {b : Id} {env : Env D P} {tm : Term} {t : Id} (h : Goes S b env tm t) : t ∈ tm.targets := by
  cases h with
  | br => simp [Term.targets]
  | choice _ h _ => exact h

omit hv in
theorem goes_agree {b : Id} {e₁ e₂ : Env D P} {tm : Term} {t : Id} (h : Goes S b e₁ tm t)
    (ha : ∀ o ∈ tm.ops, e₁ o = e₂ o) : Goes S b e₂ tm t := by
  cases h with
  | br => exact .br
  | choice h1 h2 h3 => exact .choice (by rw [← ha _ (by simp [Term.ops])]; exact h1) h2 h3

omit hv in
theorem leaves_agree {e₁ e₂ : Env D P} {tm : Term} {xs : List (Val D P)} (h : Leaves e₁ tm xs)
    (ha : ∀ o ∈ tm.ops, e₁ o = e₂ o) : Leaves e₂ tm xs := by
  cases h with
  | exit h => exact .exit (reads_agree h ha)
  | undef => exact .undef

omit hv in
theorem leaves_exit {env : Env D P} {tm : Term} {xs : List (Val D P)} (h : Leaves env tm xs) :
    tm.isExit = true := by
  cases h <;> rfl

omit hv in
theorem dead_iff {B : Block} {m : Id} : B.dead F.live = some m ↔
    ∃ g, B.merge = some g ∧ g.block = m ∧ Item.merge B.id ∉ F.live := by
  unfold Block.dead
  cases B.merge with
  | none => simp
  | some g =>
    by_cases h : Item.merge B.id ∈ F.live
    · simp [h]
    · simp [h]

omit hv in
theorem body_mem {T : Block} : ∀ i ∈ body T, i ∈ T.insts := by
  intro i hi
  exact (List.mem_filter.1 hi).1

include hs hrun

/-- Arriving at a live block on both sides. -/
theorem rel_enter {T T' : Block} {e₁ e₂ : Env D P} {m₁ m₂ : Mem C} {tr : List E} (hT : T ∈ F.order)
    (hl : Item.label T.id ∈ F.live) (hL : Left F T T') (hp : AddrsOk F e₁) (ha : Agree F e₁ e₂)
    (hm : Same F m₁ m₂) : Rel F (.run T.id (body T) e₁ m₁ tr) (.run T.id (body T') e₂ m₂ tr) := by
  rw [left_body hL]
  exact .here hT hl body_mem hp ha hm

/-- In a dead construct, a live phi of the merge block is only reached from the header. -/
theorem phi_from_header {H B T : Block} (hH : H ∈ F.order) (hd : Item.merge H.id ∉ F.live) (hB : B ∈ F.order)
    (hr : H.id = B.id ∨ Inside F H.id B.id) (hT : T ∈ F.order) : ∀ p ∈ T.insts, Item.inst p.id ∈ F.live →
    ∀ args, p.kind = .phi args → ∀ o, (o, B.id) ∈ args → B.id = H.id := by
  intro p hp hpl args hk o ho
  rcases hr with e | hi
  · exact e.symm
  · exfalso
    refine dead_inside hv hs hB hd hi (.label (live_labels hv (inst_mem hT hp) hpl ?_))
    rw [hk]
    exact List.mem_map.2 ⟨_, ho, rfl⟩

/-- One branch of a dead construct, on the side of the function. -/
theorem dead_jump {H : Block} {g : Merge} {B T : Block} {env env₁ env' : Env D P} {m m' : Mem C} {tr : List E}
    (hH : H ∈ F.order) (hg : H.merge = some g) (hl : Item.label H.id ∈ F.live)
    (hd : Item.merge H.id ∉ F.live) (hB : B ∈ F.order) (hr : H.id = B.id ∨ Inside F H.id B.id)
    (hgo : Goes S B.id env B.term T.id) (hT : T ∈ F.order) (hen : Enters T B.id env env₁)
    (hp : AddrsOk F env) (ha : Agree F env env') (hm : Same F m m') :
    Rel F (.run T.id (body T) env₁ m tr) (.run H.id [] env' m' tr) ∨ T.id = g.block := by
  rcases dead_exit hv hs hH hg hl hd hB hr (goes_target hgo) with e | hi | e
  · left
    have hloop : H.isLoop = true := hs.back B hB H hH (by rw [← e]; exact goes_target hgo) (by simp [hg]) hr
    have hTH := block_unique hv hT hH e
    subst hTH
    refine .inside hH hg hl hd hT (.inl ⟨rfl, hloop⟩) body_mem (enters_addrs hv hT hen hp) ?_ hm
    intro d hd'
    rw [hen.other d, ha d hd']
    intro p hpT hpp e
    exact dead_loop hv hT hd hloop (.inst hpT (by rw [e]; exact hd'))
  · left
    refine .inside hH hg hl hd hT (.inr hi) body_mem (enters_addrs hv hT hen hp) ?_ hm
    intro d hd'
    rw [hen.other d, ha d hd']
    intro p hpT hpp e
    exact dead_inside hv hs hT hd hi (.inst hpT (by rw [e]; exact hd'))
  · exact .inr e

include hf

theorem sim_fwd {c d c' : State D P C E} (hr : Rel F c c') (hst : Step F S c d) :
    Rel F d c' ∨ ∃ d', Step F' S c' d' ∧ Rel F d d' := by
  obtain ⟨hvars, hids, hleft⟩ := run_left hv hs hrun
  cases hr with
  | done h => cases hst
  | @here B r env m tr env' m' hB hl hsub hp ha hm =>
    cases hst with
    | @act _ i r _ _ _ env₁ m₁ ev hact =>
      have hi := inst_mem hB (hsub i (by simp))
      by_cases hli : Item.inst i.id ∈ F.live
      · right
        obtain ⟨e₂, m₂, h1, h2, h3⟩ := act_live hv hf hi hli hact ha hm (fun j _ => hp j)
        have : (i :: r).filter (alive F) = i :: r.filter (alive F) := by
          rw [List.filter_cons]; simp [alive, hli]
        rw [this]
        exact ⟨_, .act h1, .here hB hl (fun j hj => hsub j (by simp [hj])) (act_addrs hv hi hact hp) h2 h3⟩
      · left
        obtain ⟨e1, h2, h3⟩ := act_dead hv hi hli hact hp
        have : (i :: r).filter (alive F) = r.filter (alive F) := by
          rw [List.filter_cons]; simp [alive, hli]
        rw [this, e1, List.append_nil]
        exact .here hB hl (fun j hj => hsub j (by simp [hj])) (act_addrs hv hi hact hp)
          (fun j hj => by rw [h2 j hj]; exact ha j hj) (fun v hv' => by rw [h3 v hv']; exact hm v hv')
    | @jump _ B0 t T _ env₁ _ _ hb hgo ht hphi hoth =>
      rw [block_eq hv hB] at hb
      cases hb
      obtain ⟨hT, e⟩ := block_mem ht
      subst e
      have hen : Enters T B.id env env₁ := ⟨hphi, hoth⟩
      obtain ⟨B', hB', hLB⟩ := hleft B hB hl
      cases hdead : B.dead F.live with
      | some mg =>
        obtain ⟨g, hg, rfl, hd⟩ := dead_iff.1 hdead
        rcases dead_jump hv hs hrun hB hg hl hd hB (.inl rfl) hgo hT hen hp ha hm with h | e
        · exact .inl h
        · right
          have hlT := alive_merge hv hB (.label hl) hg
          rw [← e] at hlT
          obtain ⟨T', hT', hLT⟩ := hleft T hT hlT
          obtain ⟨e₂, h1, h2⟩ := enters_fwd (b' := B.id) hv hT hLT hen ha (fun _ _ _ _ _ _ _ => rfl)
          refine ⟨.run T.id (body T') e₂ m' tr, ?_, ?_⟩
          · refine .jump hB' ?_ hT' h1.phi h1.other
            rw [hLB.folded _ hdead, ← e]
            exact .br
          · exact rel_enter hv hs hrun hT hlT hLT (enters_addrs hv hT hen hp) h2 hm
      | none =>
        right
        have hterm := not_dead_term hv hB hl hdead
        have hlT := live_targets hv hB hterm (goes_target hgo)
        obtain ⟨T', hT', hLT⟩ := hleft T hT hlT
        obtain ⟨e₂, h1, h2⟩ := enters_fwd (b' := B.id) hv hT hLT hen ha (fun _ _ _ _ _ _ _ => rfl)
        refine ⟨.run T.id (body T') e₂ m' tr, ?_, ?_⟩
        · refine .jump hB' ?_ hT' h1.phi h1.other
          rcases hLB.kept hdead with e | ⟨e, _⟩
          · rw [e]
            exact goes_agree hgo (fun o ho => ha o (live_term_ops hv hB hterm ho))
          · rw [e] at hgo
            cases hgo
        · exact rel_enter hv hs hrun hT hlT hLT (enters_addrs hv hT hen hp) h2 hm
    | @exit _ B0 _ _ _ xs hb hlv =>
      rw [block_eq hv hB] at hb
      cases hb
      right
      obtain ⟨B', hB', hLB⟩ := hleft B hB hl
      have hterm := live_exit hB (leaves_exit hlv)
      cases hdead : B.dead F.live with
      | some mg =>
        obtain ⟨g, hg, _, hd⟩ := dead_iff.1 hdead
        exact absurd (term_merge hv hB (by simp [hg]) hterm) hd
      | none =>
        refine ⟨.done xs m' tr, .exit hB' ?_, .done hm⟩
        rcases hLB.kept hdead with e | ⟨e, _⟩
        · rw [e]
          exact leaves_agree hlv (fun o ho => ha o (live_term_ops hv hB hterm ho))
        · rw [e] at hlv
          cases hlv
  | @inside H g B r env m tr env' m' hH hg hl hd hB hin hsub hp ha hm =>
    have hnot : ∀ i ∈ B.insts, Item.inst i.id ∉ F.live := by
      intro i hi hli
      rcases hin with ⟨e, hlp⟩ | hin
      · have := block_unique hv hH hB e
        subst this
        exact dead_loop hv hH hd hlp (.inst hi hli)
      · exact dead_inside hv hs hB hd hin (.inst hi hli)
    have hr : H.id = B.id ∨ Inside F H.id B.id := by
      rcases hin with ⟨e, _⟩ | h
      · exact .inl e
      · exact .inr h
    cases hst with
    | @act _ i r _ _ _ env₁ m₁ ev hact =>
      left
      have hi := hsub i (by simp)
      obtain ⟨e1, h2, h3⟩ := act_dead hv (inst_mem hB hi) (hnot i hi) hact hp
      rw [e1, List.append_nil]
      exact .inside hH hg hl hd hB hin (fun j hj => hsub j (by simp [hj]))
        (act_addrs hv (inst_mem hB hi) hact hp)
        (fun j hj => by rw [h2 j hj]; exact ha j hj) (fun v hv' => by rw [h3 v hv']; exact hm v hv')
    | @jump _ B0 t T _ env₁ _ _ hb hgo ht hphi hoth =>
      rw [block_eq hv hB] at hb
      cases hb
      obtain ⟨hT, e⟩ := block_mem ht
      subst e
      have hen : Enters T B.id env env₁ := ⟨hphi, hoth⟩
      rcases dead_jump hv hs hrun hH hg hl hd hB hr hgo hT hen hp ha hm with h | e
      · exact .inl h
      · right
        have hlT := alive_merge hv hH (.label hl) hg
        rw [← e] at hlT
        obtain ⟨T', hT', hLT⟩ := hleft T hT hlT
        obtain ⟨H', hH', hLH⟩ := hleft H hH hl
        obtain ⟨e₂, h1, h2⟩ := enters_fwd (b' := H.id) hv hT hLT hen ha
          (phi_from_header hv hs hrun hH hd hB hr hT)
        refine ⟨.run T.id (body T') e₂ m' tr, ?_, ?_⟩
        · refine .jump hH' ?_ hT' h1.phi h1.other
          rw [hLH.folded _ (dead_iff.2 ⟨g, hg, rfl, hd⟩), ← e]
          exact .br
        · exact rel_enter hv hs hrun hT hlT hLT (enters_addrs hv hT hen hp) h2 hm
    | @exit _ B0 _ _ _ xs hb hlv =>
      rw [block_eq hv hB] at hb
      cases hb
      exfalso
      have hterm := live_exit hB (leaves_exit hlv)
      rcases hin with ⟨e, hlp⟩ | hin
      · have := block_unique hv hH hB e
        subst this
        exact dead_loop hv hH hd hlp (.term hterm)
      · exact dead_inside hv hs hB hd hin (.term hterm)

theorem reach_fwd {c : State D P C E} (h : Reach F S c) : ∃ c', Reach F' S c' ∧ Rel F c c' := by
  induction h with
  | @start b bs ho =>
    obtain ⟨hvars, hids, hleft⟩ := run_left hv hs hrun
    have hb : b ∈ F.order := by simp [ho]
    have hl := live_entry ho
    obtain ⟨b', hb', hL⟩ := hleft b hb hl
    have hm := block_mem hb'
    have hstart : startEnv F' S = startEnv F S := by unfold startEnv; rw [hvars]
    have hhead : ∃ bs', F'.order = b' :: bs' := by
      cases ho' : F'.order with
      | nil => rw [ho'] at hm; cases hm.1
      | cons x xs =>
        rw [ho', ho] at hids
        simp only [List.map_cons, List.cons.injEq] at hids
        rw [Func.block, ho', List.find?_cons] at hb'
        simp only [hids.1, beq_self_eq_true, Option.some.injEq] at hb'
        exact ⟨xs, by rw [hb']⟩
    obtain ⟨bs', ho'⟩ := hhead
    refine ⟨_, .start ho', ?_⟩
    rw [hstart, hm.2]
    exact rel_enter hv hs hrun hb hl hL (start_addrs hv hf) (fun _ _ => rfl) (fun _ _ => rfl)
  | step _ hst ih =>
    obtain ⟨c', hc', hr⟩ := ih
    rcases sim_fwd hv hs hf hrun hr hst with h | ⟨d', h1, h2⟩
    · exact ⟨c', hc', h⟩
    · exact ⟨d', .step hc' h1, h2⟩

omit hv hs hf hrun in
theorem Spec.Steps.reach {c d : State D P C E} (h : Steps F S c d) (hc : Reach F S c) : Reach F S d := by
  induction h with
  | refl => exact hc
  | step h _ ih => exact ih (.step hc h)

theorem sim_bwd (hph : PhisComplete F) {c e : State D P C E} (hpath : Steps F S c e)
    (he : ∃ xs m tr, e = .done xs m tr) : ∀ {c' d'}, Rel F c c' → Step F' S c' d' →
    ∃ d, Steps F S c d ∧ Rel F d d' := by
  obtain ⟨hvars, hids, hleft⟩ := run_left hv hs hrun
  induction hpath with
  | refl =>
    intro c' d' hr hst
    obtain ⟨xs, m, tr, rfl⟩ := he
    cases hr
    cases hst
  | @step c c₁ e hst1 hrest ih =>
    intro c' d' hr hst
    have hstut : Rel F c₁ c' → ∃ d, Steps F S c d ∧ Rel F d d' := by
      intro h
      obtain ⟨d, h1, h2⟩ := ih he h hst
      exact ⟨d, .step hst1 h1, h2⟩
    cases hr with
    | done h => cases hst
    | @here B r env m tr env' m' hB hl hsub hp ha hm =>
      cases r with
      | cons i r =>
        have hi := inst_mem hB (hsub i (by simp))
        by_cases hli : Item.inst i.id ∈ F.live
        · have hfl : (i :: r).filter (alive F) = i :: r.filter (alive F) := by
            rw [List.filter_cons]; simp [alive, hli]
          rw [hfl] at hst
          cases hst with
          | @act _ _ _ _ _ _ e₂ m₂ ev hact =>
            obtain ⟨e₁, m₁, h1, h2, h3⟩ := act_live hv hf hi hli hact (fun j hj => (ha j hj).symm)
              (fun v hv' => (hm v hv').symm)
              (fun j hj v q hq => hp j v q (by rw [ha j hj]; exact hq))
            exact ⟨_, .step (.act h1) .refl, .here hB hl (fun j hj => hsub j (by simp [hj]))
              (act_addrs hv hi h1 hp) (fun j hj => (h2 j hj).symm) (fun v hv' => (h3 v hv').symm)⟩
        · apply hstut
          have hfl : (i :: r).filter (alive F) = r.filter (alive F) := by
            rw [List.filter_cons]; simp [alive, hli]
          rw [hfl]
          cases hst1 with
          | act hact =>
            obtain ⟨e1, h2, h3⟩ := act_dead hv hi hli hact hp
            rw [e1, List.append_nil]
            exact .here hB hl (fun j hj => hsub j (by simp [hj])) (act_addrs hv hi hact hp)
              (fun j hj => by rw [h2 j hj]; exact ha j hj) (fun v hv' => by rw [h3 v hv']; exact hm v hv')
      | nil =>
        rw [List.filter_nil] at hst hstut
        obtain ⟨B', hB', hLB⟩ := hleft B hB hl
        cases hdead : B.dead F.live with
        | some mg =>
          obtain ⟨g, hg, rfl, hd⟩ := dead_iff.1 hdead
          cases hst1 with
          | exit hb hlv =>
            rw [block_eq hv hB] at hb
            cases hb
            exact absurd (term_merge hv hB (by simp [hg]) (live_exit hB (leaves_exit hlv))) hd
          | @jump _ B0 t T _ env₁ _ _ hb hgo ht hphi hoth =>
            rw [block_eq hv hB] at hb
            cases hb
            obtain ⟨hT, e⟩ := block_mem ht
            subst e
            have hen : Enters T B.id env env₁ := ⟨hphi, hoth⟩
            rcases dead_jump hv hs hrun hB hg hl hd hB (.inl rfl) hgo hT hen hp ha hm with h | e
            · exact hstut h
            · have hlT := alive_merge hv hB (.label hl) hg
              rw [← e] at hlT
              obtain ⟨T', hT', hLT⟩ := hleft T hT hlT
              refine ⟨_, .step (.jump (block_eq hv hB) hgo ht hphi hoth) .refl, ?_⟩
              cases hst with
              | exit hb hlv =>
                rw [hB'] at hb
                cases hb
                rw [hLB.folded _ hdead] at hlv
                cases hlv
              | @jump _ B1 t1 T1 _ env₂ _ _ hb1 hgo1 ht1 hphi1 hoth1 =>
                rw [hB'] at hb1
                cases hb1
                rw [hLB.folded _ hdead, ← e] at hgo1
                cases hgo1
                rw [hT'] at ht1
                cases ht1
                refine rel_enter hv hs hrun hT hlT hLT (enters_addrs hv hT hen hp) ?_ hm
                refine enters_both hv hT hLT hen ⟨hphi1, hoth1⟩ ha ?_
                intro p hpT _ args hk o o' ho ho'
                obtain ⟨w, _, hw⟩ := hph B hB T hT (goes_target hgo) p hpT args hk
                rw [hw o ho, hw o' ho']
        | none =>
          have hterm := not_dead_term hv hB hl hdead
          have hnu : B'.term = B.term := by
            rcases hLB.kept hdead with e | ⟨e, _⟩
            · exact e
            · exfalso
              cases hst1 with
              | exit hb hlv =>
                rw [block_eq hv hB] at hb
                cases hb
                rw [e] at hlv
                cases hlv
              | jump hb hgo ht hphi hoth =>
                rw [block_eq hv hB] at hb
                cases hb
                rw [e] at hgo
                cases hgo
          cases hst with
          | exit hb hlv =>
            rw [hB'] at hb
            cases hb
            rw [hnu] at hlv
            exact ⟨_, .step (.exit (block_eq hv hB)
              (leaves_agree hlv (fun o ho => (ha o (live_term_ops hv hB hterm ho)).symm))) .refl, .done hm⟩
          | @jump _ B1 t1 T1 _ env₂ _ _ hb1 hgo1 ht1 hphi1 hoth1 =>
            rw [hB'] at hb1
            cases hb1
            rw [hnu] at hgo1
            have hgo := goes_agree hgo1 (fun o ho => (ha o (live_term_ops hv hB hterm ho)).symm)
            obtain ⟨T, hT, e⟩ := hv.targets B hB t1 (goes_target hgo)
            subst e
            have hlT := live_targets hv hB hterm (goes_target hgo)
            obtain ⟨T', hT', hLT⟩ := hleft T hT hlT
            rw [hT'] at ht1
            cases ht1
            obtain ⟨env₁, hen⟩ := enters_exists hv hph hB hT (goes_target hgo) env
            refine ⟨_, .step (.jump (block_eq hv hB) hgo (block_eq hv hT) hen.phi hen.other) .refl, ?_⟩
            refine rel_enter hv hs hrun hT hlT hLT (enters_addrs hv hT hen hp) ?_ hm
            refine enters_both hv hT hLT hen ⟨hphi1, hoth1⟩ ha ?_
            intro p hpT _ args hk o o' ho ho'
            obtain ⟨w, _, hw⟩ := hph B hB T hT (goes_target hgo) p hpT args hk
            rw [hw o ho, hw o' ho']
    | @inside H g B r env m tr env' m' hH hg hl hd hB hin hsub hp ha hm =>
      have hr : H.id = B.id ∨ Inside F H.id B.id := by
        rcases hin with ⟨e, _⟩ | h
        · exact .inl e
        · exact .inr h
      rcases sim_fwd hv hs hf hrun (.inside hH hg hl hd hB hin hsub hp ha hm) hst1 with h | _
      · exact hstut h
      · cases hst1 with
        | @act _ i r _ _ _ env₁ m₁ ev hact =>
          apply hstut
          have hi := hsub i (by simp)
          have hnot : Item.inst i.id ∉ F.live := by
            intro hli
            rcases hin with ⟨e, hlp⟩ | hin
            · have := block_unique hv hH hB e
              subst this
              exact dead_loop hv hH hd hlp (.inst hi hli)
            · exact dead_inside hv hs hB hd hin (.inst hi hli)
          obtain ⟨e1, h2, h3⟩ := act_dead hv (inst_mem hB hi) hnot hact hp
          rw [e1, List.append_nil]
          exact .inside hH hg hl hd hB hin (fun j hj => hsub j (by simp [hj]))
            (act_addrs hv (inst_mem hB hi) hact hp)
            (fun j hj => by rw [h2 j hj]; exact ha j hj) (fun v hv' => by rw [h3 v hv']; exact hm v hv')
        | exit hb hlv =>
          rw [block_eq hv hB] at hb
          cases hb
          exfalso
          have hterm := live_exit hB (leaves_exit hlv)
          rcases hin with ⟨e, hlp⟩ | hin
          · have := block_unique hv hH hB e
            subst this
            exact dead_loop hv hH hd hlp (.term hterm)
          · exact dead_inside hv hs hB hd hin (.term hterm)
        | @jump _ B0 t T _ env₁ _ _ hb hgo ht hphi hoth =>
          rw [block_eq hv hB] at hb
          cases hb
          obtain ⟨hT, e⟩ := block_mem ht
          subst e
          have hen : Enters T B.id env env₁ := ⟨hphi, hoth⟩
          rcases dead_jump hv hs hrun hH hg hl hd hB hr hgo hT hen hp ha hm with h | e
          · exact hstut h
          · have hlT := alive_merge hv hH (.label hl) hg
            rw [← e] at hlT
            obtain ⟨T', hT', hLT⟩ := hleft T hT hlT
            obtain ⟨H', hH', hLH⟩ := hleft H hH hl
            have hdead := dead_iff.2 ⟨g, hg, rfl, hd⟩
            refine ⟨_, .step (.jump (block_eq hv hB) hgo ht hphi hoth) .refl, ?_⟩
            cases hst with
            | exit hb hlv =>
              rw [hH'] at hb
              cases hb
              rw [hLH.folded _ hdead] at hlv
              cases hlv
            | @jump _ B1 t1 T1 _ env₂ _ _ hb1 hgo1 ht1 hphi1 hoth1 =>
              rw [hH'] at hb1
              cases hb1
              rw [hLH.folded _ hdead, ← e] at hgo1
              cases hgo1
              rw [hT'] at ht1
              cases ht1
              refine rel_enter hv hs hrun hT hlT hLT (enters_addrs hv hT hen hp) ?_ hm
              refine enters_both hv hT hLT hen ⟨hphi1, hoth1⟩ ha ?_
              intro p hpT hpl args hk o o' ho ho'
              have eb := phi_from_header hv hs hrun hH hd hB hr hT p hpT hpl args hk o ho
              rw [← eb] at ho'
              obtain ⟨w, _, hw⟩ := hph B hB T hT (goes_target hgo) p hpT args hk
              rw [hw o ho, hw o' ho']

theorem reach_bwd (hph : PhisComplete F)
    (hfin : ∀ c : State D P C E, Reach F S c → ∃ xs m tr, Steps F S c (.done xs m tr))
    {c' : State D P C E} (h : Reach F' S c') : ∃ c, Reach F S c ∧ Rel F c c' := by
  induction h with
  | @start b' bs' ho' =>
    obtain ⟨hvars, hids, hleft⟩ := run_left hv hs hrun
    cases ho : F.order with
    | nil => rw [ho, ho'] at hids; cases hids
    | cons b bs =>
      have hb : b ∈ F.order := by simp [ho]
      have hl := live_entry ho
      obtain ⟨b0, hb0, hL⟩ := hleft b hb hl
      have hstart : startEnv F' S = startEnv F S := by unfold startEnv; rw [hvars]
      rw [ho, ho'] at hids
      simp only [List.map_cons, List.cons.injEq] at hids
      rw [Func.block, ho', List.find?_cons] at hb0
      simp only [hids.1, beq_self_eq_true, Option.some.injEq] at hb0
      subst hb0
      refine ⟨_, .start ho, ?_⟩
      rw [hstart, hids.1]
      exact rel_enter hv hs hrun hb hl hL (start_addrs hv hf) (fun _ _ => rfl) (fun _ _ => rfl)
  | step _ hst ih =>
    obtain ⟨c, hc, hr⟩ := ih
    obtain ⟨xs, m, tr, hpath⟩ := hfin c hc
    obtain ⟨d, h1, h2⟩ := sim_bwd hv hs hf hrun hph hpath ⟨xs, m, tr, rfl⟩ hr hst
    exact ⟨d, h1.reach hc, h2⟩

end

end Verif.Adce
