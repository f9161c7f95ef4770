import Verif.Adce.Example
/-!
# C66: aggressive dead code elimination
-/
namespace Verif.Adce
open Spec

variable {D P C E : Type}

/-- The pass succeeds on structured functions: the walk over the blocks always finds the merge block it
is looking for. -/
theorem walk_succeeds (F : Func) (hv : Valid F) (hs : Structured F) : ∃ F', F.run = some F' := run_some hv hs

/-- If the function can finish with some results, events and memory, what the pass leaves of it can
finish with the same results, the same events, and the same contents of all variables others can see. -/
theorem finished_kept (F F' : Func) (hv : Valid F) (hs : Structured F) (S : Sem D P C E) (hf : S.Fits F)
    (hrun : F.run = some F') (xs : List (Val D P)) (m : Mem C) (tr : List E)
    (h : Reach F S (.done xs m tr)) :
    ∃ m', Reach F' S (.done xs m' tr) ∧ ∀ v, ¬ Own F v → m v = m' v := by
  obtain ⟨c', h1, h2⟩ := reach_fwd hv hs hf hrun h
  cases h2 with
  | done hm => exact ⟨_, h1, fun v hv => hm v (.inl hv)⟩

/-- Whatever an observer can see of the function, finished or not, can be seen of the result. -/
theorem events_kept (F F' : Func) (hv : Valid F) (hs : Structured F) (S : Sem D P C E) (hf : S.Fits F)
    (hrun : F.run = some F') (c : State D P C E) (h : Reach F S c) :
    ∃ c', Reach F' S c' ∧ c'.trace = c.trace := by
  obtain ⟨c', h1, h2⟩ := reach_fwd hv hs hf hrun h
  cases h2 <;> exact ⟨_, h1, rfl⟩

/-- And nothing else can be seen of the result, if the function can finish from every point an execution
reaches. Missing from the full property: functions that can get stuck in an endless loop or in undefined
behaviour; for these it is false (`endless_loop_removed`). -/
theorem nothing_added_partial (F F' : Func) (hv : Valid F) (hs : Structured F) (hp : PhisComplete F)
    (S : Sem D P C E) (hf : S.Fits F) (hrun : F.run = some F')
    (hfin : ∀ c : State D P C E, Reach F S c → ∃ xs m tr, Steps F S c (.done xs m tr))
    (c' : State D P C E) (h : Reach F' S c') :
    (∃ c, Reach F S c ∧ c.trace = c'.trace) ∧
    ∀ xs m' tr, c' = .done xs m' tr → ∃ m, Reach F S (.done xs m tr) ∧ ∀ v, ¬ Own F v → m v = m' v := by
  obtain ⟨c, h1, h2⟩ := reach_bwd hv hs hf hrun hp hfin h
  refine ⟨?_, ?_⟩
  · cases h2 <;> exact ⟨_, h1, rfl⟩
  · rintro xs m' tr rfl
    cases h2 with
    | done hm => exact ⟨_, h1, fun v hv => hm v (.inl hv)⟩

/-- The hypotheses are met by a function in which a selection around a loop is dropped and another selection, with an
effect in it, is kept. -/
example : Valid Example.good ∧ Structured Example.good ∧ PhisComplete Example.good ∧
    (Example.sem Example.good.consts).Fits Example.good ∧ Example.good.run = some Example.goodAfter :=
  ⟨Example.good_valid, Example.good_structured, Example.good_phis, Example.good_fits, Example.good_run⟩

/-- Also that of always being able to finish, by a function the pass changes. -/
example : Valid Example.small ∧ Structured Example.small ∧ PhisComplete Example.small ∧
    (Example.sem Example.small.consts).Fits Example.small ∧ Example.small.run = some Example.smallAfter ∧
    Example.small.order ≠ Example.smallAfter.order ∧
    ∀ c, Reach Example.small (Example.sem Example.small.consts) c →
      ∃ xs m tr, Steps Example.small (Example.sem Example.small.consts) c (.done xs m tr) :=
  ⟨Example.small_valid, Example.small_structured, Example.small_phis, Example.small_fits, Example.small_run,
    by decide, fun _ => Example.small_finishes⟩

/-- The pass turns a function that runs for ever and does nothing else into one that returns. -/
theorem endless_loop_removed : ∃ (F F' : Func) (S : Sem Nat Unit Nat (List Nat)), Valid F ∧ Structured F ∧ S.Fits F ∧
    F.run = some F' ∧ (∀ xs m tr, ¬ Reach F S (.done xs m tr)) ∧ ∃ xs m tr, Reach F' S (.done xs m tr) := by
  refine ⟨Example.endless, Example.endlessAfter, _, Example.endless_valid, Example.endless_structured,
    Example.endless_fits, Example.endless_run, ?_, ?_⟩
  · intro xs m tr h
    obtain ⟨_, _, _, _, e, _⟩ := Example.endless_before h
    cases e
  · obtain ⟨m, h⟩ := Example.endless_after
    exact ⟨_, m, _, h⟩

/-- Nothing an execution of the result gets to names an id or a label that is gone. -/
theorem operands_kept (F F' : Func) (hv : Valid F) (hs : Structured F) (S : Sem D P C E)
    (hrun : F.run = some F') (b : Id) (r : List Inst) (env : Env D P) (m : Mem C) (tr : List E)
    (h : Reach F' S (.run b r env m tr)) :
    (∀ i ∈ r, ∀ o ∈ i.kind.ops, Declared F' o) ∧
    ∃ B ∈ F'.order, B.id = b ∧ (∀ o ∈ B.term.ops, Declared F' o) ∧ (∀ t ∈ B.term.targets, Label F' t) ∧
      ∀ i ∈ B.insts, (∀ o ∈ i.kind.ops, Declared F' o) ∧ ∀ l ∈ i.kind.labels, Label F' l := by
  obtain ⟨B, hB, rfl, hl, hi⟩ := reached_live hv hs hrun h _ _ _ _ _ rfl
  obtain ⟨hvars, hids, hleft⟩ := run_left hv hs hrun
  obtain ⟨B', hB', hL⟩ := hleft B hB hl
  have hlab : ∀ t, Label F t → Label F' t := by
    rintro t ⟨T, hT, rfl⟩
    have : T.id ∈ F'.order.map (·.id) := by rw [hids]; exact List.mem_map.2 ⟨T, hT, rfl⟩
    obtain ⟨T', h1, h2⟩ := List.mem_map.1 this
    exact ⟨T', h1, h2⟩
  have hops : ∀ i ∈ B.insts, Item.inst i.id ∈ F.live → ∀ o ∈ i.kind.ops, Declared F' o := fun i hi hli o ho =>
    declared_kept hv hs hrun (hv.ops i (inst_mem hB hi) o ho) (live_ops hv (inst_mem hB hi) hli ho)
  refine ⟨fun i hir o ho => hops i (hi i hir).1 (hi i hir).2 o ho, B', (block_mem hB').1, (block_mem hB').2, ?_, ?_, ?_⟩
  · intro o ho
    cases hd : B.dead F.live with
    | some mg => rw [hL.folded _ hd] at ho; cases ho
    | none =>
      rcases hL.kept hd with e | ⟨_, e | e⟩
      · rw [e] at ho
        exact declared_kept hv hs hrun (hv.term_ops B hB o ho)
          (live_term_ops hv hB (not_dead_term hv hB hl hd) ho)
      · rw [e] at ho; cases ho
      · rw [e] at ho; cases ho
  · intro t ht
    apply hlab
    cases hd : B.dead F.live with
    | some mg =>
      rw [hL.folded _ hd] at ht
      obtain ⟨g, hg, rfl, _⟩ := dead_iff.1 hd
      simp only [Term.targets, List.mem_singleton] at ht
      subst ht
      exact hv.merges B hB g hg _ (merge_label g)
    | none =>
      rcases hL.kept hd with e | ⟨_, e | e⟩
      · rw [e] at ht; exact hv.targets B hB t ht
      · rw [e] at ht; cases ht
      · rw [e] at ht; cases ht
  · intro i hi'
    rw [hL.insts] at hi'
    have hi' := List.mem_filter.1 hi'
    exact ⟨hops i hi'.1 (by simpa using hi'.2), fun l hl => hlab l (hv.phi_labels i (inst_mem hB hi'.1) l hl)⟩

/-- Whatever an execution of the result gets to is there for a reason: it has an effect, it stores where
others can see it, something kept uses its result, or it may write to a variable something kept reads. -/
theorem kept_for_a_reason (F F' : Func) (hv : Valid F) (hs : Structured F)
    (hpar : ∀ i ∈ F.insts, i.id ∉ F.params.map (·.1)) (S : Sem D P C E) (hrun : F.run = some F')
    (b : Id) (r : List Inst) (env : Env D P) (m : Mem C) (tr : List E) (h : Reach F' S (.run b r env m tr))
    (i : Inst) (hi : i ∈ r) :
    (∃ ops rd, i.kind = .effect ops rd) ∨ (∃ ops, i.kind = .call ops) ∨
    (∃ p, ((∃ w, i.kind = .store p w) ∨ (∃ s, i.kind = .copy p s)) ∧ ∀ v, Own F v → ¬ Within F v p) ∨
    (∃ u ∈ F'.insts, i.id ∈ u.kind.ops) ∨
    (∃ B ∈ F'.order, i.id ∈ B.term.ops) ∨
    (∃ u ∈ F'.insts, ∃ v p q, Own F v ∧ From F v p ∧ ReadsThrough u.kind p ∧ From F v q ∧ q ∈ i.kind.ops ∧
      (∀ s w, i.kind = .store s w → s = q) ∧ (∀ t s, i.kind = .copy t s → t = q) ∧
      (∀ s, i.kind ≠ .load s) ∧ (∀ b idx, i.kind ≠ .chain b idx)) := by
  obtain ⟨B, hB, rfl, hl, hir⟩ := reached_live hv hs hrun h _ _ _ _ _ rfl
  have hin := inst_mem hB (hir i hi).1
  rcases inst_why hv hin (hpar i hin) (hir i hi).2 with h | ⟨K, hK, hkt, ho⟩ | ⟨u, hu, hul, ho⟩ |
    ⟨u, hu, hul, v, p, hloc, hrd, hfp, q, hq⟩
  · have hst : ∀ p, F.isLocalAddr p = false → ∀ v, Own F v → ¬ Within F v p := by
      intro p hp v hown hw
      have hsome : (F.vars.lookup v).isSome = true := by
        rcases hown with h | ⟨h, _⟩ <;> rw [h] <;> rfl
      have e := within_varOf hv hsome hw
      simp only [Func.isLocalAddr, e] at hp
      rw [(isLocal_own (F := F) (v := v)).2 hown] at hp
      cases hp
    cases hk : i.kind with
    | effect ops rd => exact .inl ⟨_, _, rfl⟩
    | call ops => exact .inr (.inl ⟨_, rfl⟩)
    | store p w =>
      simp only [hk, Func.isRoot, Bool.not_eq_true'] at h
      exact .inr (.inr (.inl ⟨p, .inl ⟨w, rfl⟩, hst p h⟩))
    | copy t s =>
      simp only [hk, Func.isRoot, Bool.not_eq_true'] at h
      exact .inr (.inr (.inl ⟨t, .inr ⟨s, rfl⟩, hst t h⟩))
    | _ => rw [hk] at h; cases h
  · refine .inr (.inr (.inr (.inr (.inl ?_))))
    obtain ⟨hvars, hids, hleft⟩ := run_left hv hs hrun
    obtain ⟨K', hK', hL⟩ := hleft K hK (alive_label hv hK (.term hkt))
    refine ⟨K', (block_mem hK').1, ?_⟩
    cases hd : K.dead F.live with
    | some mg =>
      obtain ⟨g, hg, rfl, hm⟩ := dead_iff.1 hd
      exact absurd (term_merge hv hK (by simp [hg]) hkt) hm
    | none =>
      rcases hL.kept hd with e | ⟨e, _⟩
      · rw [e]; exact ho
      · rw [e] at ho; cases ho
  · exact .inr (.inr (.inr (.inl ⟨u, inst_kept hv hs hrun hu hul, ho⟩)))
  · exact .inr (.inr (.inr (.inr (.inr ⟨u, inst_kept hv hs hrun hu hul, v, p, q,
      isLocal_own.1 hloc, hfp, hrd, hq⟩))))

example : ∀ i ∈ Example.good.insts, i.id ∉ Example.good.params.map (·.1) := by decide

end Verif.Adce
