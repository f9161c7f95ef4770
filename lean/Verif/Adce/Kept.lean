import Verif.Adce.Exec
/-!
# What is kept
-/
set_option linter.unusedSimpArgs false
set_option linter.unusedVariables false
set_option linter.unusedSectionVars false
namespace Verif.Adce
open Spec

variable {D P C E : Type}

section
variable {F F' : Func} (hv : Valid F) (hs : Structured F) {S : Sem D P C E} (hrun : F.run = some F')
include hv hs hrun

/-- A block an execution of the result is in is a live block of the function. -/
theorem reached_live {c : State D P C E} (h : Reach F' S c) : ∀ b r env m tr, c = .run b r env m tr →
    ∃ B ∈ F.order, B.id = b ∧ Item.label b ∈ F.live ∧ ∀ i ∈ r, i ∈ B.insts ∧ Item.inst i.id ∈ F.live := by
  obtain ⟨hvars, hids, hleft⟩ := run_left hv hs hrun
  have hbody : ∀ {B B' : Block}, Left F B B' → ∀ i ∈ body B', i ∈ B.insts ∧ Item.inst i.id ∈ F.live := by
    intro B B' hL i hi
    have := body_mem i hi
    rw [hL.insts] at this
    have := List.mem_filter.1 this
    exact ⟨this.1, by simpa using this.2⟩
  induction h with
  | @start b' bs' ho' =>
    rintro b r env m tr e
    cases e
    cases ho : F.order with
    | nil => rw [ho, ho'] at hids; cases hids
    | cons b bs =>
      have hb : b ∈ F.order := by simp [ho]
      have hl := live_entry ho
      obtain ⟨b0, hb0, hL⟩ := hleft b hb hl
      rw [ho, ho'] at hids
      simp only [List.map_cons, List.cons.injEq] at hids
      rw [Func.block, ho', List.find?_cons] at hb0
      simp only [hids.1, beq_self_eq_true, Option.some.injEq] at hb0
      subst hb0
      exact ⟨b, by simp, hids.1.symm, by rw [hids.1]; exact hl, hbody hL⟩
  | step _ hst ih =>
    rintro b r env m tr rfl
    cases hst with
    | act _ =>
      obtain ⟨B, h1, h2, h3, h4⟩ := ih _ _ _ _ _ rfl
      exact ⟨B, h1, h2, h3, fun i hi => h4 i (by simp [hi])⟩
    | @jump b0 B0 t T _ env₁ _ _ hb hgo ht hphi hoth =>
      obtain ⟨B, hB, rfl, hl, _⟩ := ih _ _ _ _ _ rfl
      obtain ⟨B', hB', hL⟩ := hleft B hB hl
      rw [hB'] at hb
      cases hb
      have hlt : Item.label b ∈ F.live ∧ ∃ T ∈ F.order, T.id = b := by
        cases hd : B.dead F.live with
        | some mg =>
          obtain ⟨g, hg, rfl, _⟩ := dead_iff.1 hd
          rw [hL.folded _ hd] at hgo
          cases hgo
          exact ⟨alive_merge hv hB (.label hl) hg, hv.merges B hB g hg _ (merge_label g)⟩
        | none =>
          rcases hL.kept hd with e | ⟨e, e' | e'⟩
          · rw [e] at hgo
            exact ⟨live_targets hv hB (not_dead_term hv hB hl hd) (goes_target hgo),
              hv.targets B hB _ (goes_target hgo)⟩
          · rw [e'] at hgo; cases hgo
          · rw [e'] at hgo; cases hgo
      obtain ⟨hlt, T0, hT0, rfl⟩ := hlt
      obtain ⟨T', hT', hLT⟩ := hleft T0 hT0 hlt
      rw [hT'] at ht
      cases ht
      exact ⟨T0, hT0, rfl, hlt, hbody hLT⟩

/-- Live instructions are still there. -/
theorem inst_kept {u : Inst} (hu : u ∈ F.insts) (hl : Item.inst u.id ∈ F.live) : u ∈ F'.insts := by
  obtain ⟨hvars, hids, hleft⟩ := run_left hv hs hrun
  have hu' := hu
  simp only [Func.insts, List.mem_flatMap] at hu'
  obtain ⟨B, hB, hi⟩ := hu'
  obtain ⟨B', hB', hL⟩ := hleft B hB (alive_label hv hB (.inst hi hl))
  refine inst_mem (block_mem hB').1 ?_
  rw [hL.insts]
  exact List.mem_filter.2 ⟨hi, by simpa using hl⟩

theorem declared_kept {o : Id} (hd : Declared F o) (hl : Item.inst o ∈ F.live) : Declared F' o := by
  have hF : F'.vars = F.vars ∧ F'.params = F.params ∧ F'.consts = F.consts := by
    simp only [Func.run, Option.map_eq_some_iff] at hrun
    obtain ⟨o, _, rfl⟩ := hrun
    exact ⟨rfl, rfl, rfl⟩
  rcases hd with ⟨i, hi, rfl⟩ | h | h | h
  · exact .inl ⟨i, inst_kept hv hs hrun hi hl, rfl⟩
  · exact .inr (.inl (by rw [hF.1]; exact h))
  · exact .inr (.inr (.inl (by rw [hF.2.1]; exact h)))
  · exact .inr (.inr (.inr (by rw [hF.2.2]; exact h)))

omit hs hrun

omit hv in
theorem root_from : ∀ n p v, F.root n p = some v → From F v p := by
  intro n
  induction n with
  | zero => intro p v h; simp [Func.root] at h
  | succ n ih =>
    intro p v h
    rw [Func.root] at h
    split at h
    · simp only [Option.some.injEq] at h
      subst h
      exact .self
    · split at h
      · rename_i i b idx hf
        have hm := find_mem hf
        have := From.chain (ih _ _ h) hm.1 ⟨b, idx, rfl⟩ (by simp [Kind.ops])
        rw [hm.2] at this
        exact this
      · cases h

omit hv in
theorem stores_from {i v : Id} : ∀ n p, From F v p → i ∈ F.stores n p →
    ∃ u ∈ F.insts, u.id = i ∧ ∃ q, From F v q ∧ q ∈ u.kind.ops ∧ (∀ s w, u.kind = .store s w → s = q) ∧
      (∀ t s, u.kind = .copy t s → t = q) ∧ (∀ s, u.kind ≠ .load s) ∧ (∀ b idx, u.kind ≠ .chain b idx) := by
  intro n
  induction n with
  | zero => intro p _ h; simp [Func.stores] at h
  | succ n ih =>
    intro p hp h
    rw [Func.stores] at h
    simp only [List.mem_flatMap, List.mem_filter, List.contains_iff_mem] at h
    obtain ⟨u, ⟨hu, hpu⟩, hi⟩ := h
    split at hi
    · rename_i b idx hk
      exact ih _ (.chain hp hu ⟨b, idx, hk⟩ hpu) hi
    · cases hi
    · rename_i t s hk
      split at hi
      · rename_i e
        simp only [List.mem_singleton] at hi
        refine ⟨u, hu, hi.symm, p, hp, hpu, ?_, ?_, ?_, ?_⟩ <;> simp [hk, e]
      · cases hi
    · rename_i t s hk
      split at hi
      · rename_i e
        simp only [List.mem_singleton] at hi
        refine ⟨u, hu, hi.symm, p, hp, hpu, ?_, ?_, ?_, ?_⟩ <;> simp [hk, e]
      · cases hi
    · rename_i h1 h2 h3 h4
      simp only [List.mem_singleton] at hi
      exact ⟨u, hu, hi.symm, p, hp, hpu, fun s w e => absurd e (h4 s w), fun s w e => absurd e (h3 s w), h2, h1⟩

omit hv in
theorem loaded_reads {k : Kind} {v : Id} (h : v ∈ F.loaded k) : ∃ p, ReadsThrough k p ∧ From F v p := by
  unfold Func.loaded at h
  split at h
  · exact ⟨_, .load, root_from _ _ _ (Option.mem_toList.1 h)⟩
  · exact ⟨_, .copy, root_from _ _ _ (Option.mem_toList.1 h)⟩
  · obtain ⟨p, hp, e⟩ := List.mem_filterMap.1 h
    exact ⟨p, .effect hp, root_from _ _ _ e⟩
  · obtain ⟨p, hp, e⟩ := List.mem_filterMap.1 h
    exact ⟨p, .call (List.mem_filter.1 hp).1, root_from _ _ _ e⟩
  · cases h

omit hv in
theorem blockDeps_inst {B : Block} {l g : Bool} {i : Id} : Item.inst i ∉ F.blockDeps B l g := by
  unfold Func.blockDeps Func.breaks Func.continues
  simp only [List.mem_cons, List.mem_append, not_or, reduceCtorEq, not_false_eq_true, true_and]
  refine ⟨⟨⟨?_, ?_⟩, ?_⟩, ?_⟩
  · split <;> simp
  · split <;> simp
  · split <;> simp
  · split
    · split
      · simp only [List.mem_append, not_or]
        constructor
        · simp only [List.mem_flatMap, not_exists, not_and]
          intro c _
          split <;> simp
        · split
          · simp
          · simp only [List.mem_flatMap, not_exists, not_and]
            intro c _
            split
            · split
              · split <;> simp
              · simp
            · split
              · simp
              · split
                · split <;> simp
                · simp
            · simp
      · simp
    · simp

theorem within_varOf {v p : Id} (hs : (F.vars.lookup v).isSome = true) (h : Within F v p) : F.varOf p = some v := by
  induction h with
  | self => exact varOf_var hs
  | chain _ hu hk ih => rw [varOf_chain hv hu hk]; exact ih

/-- Why an instruction is live. -/
theorem inst_why {i : Inst} (hi : i ∈ F.insts) (hp : i.id ∉ F.params.map (·.1)) (hl : Item.inst i.id ∈ F.live) :
    F.isRoot i.kind = true ∨
    (∃ B ∈ F.order, Item.term B.id ∈ F.live ∧ i.id ∈ B.term.ops) ∨
    (∃ u ∈ F.insts, Item.inst u.id ∈ F.live ∧ i.id ∈ u.kind.ops) ∨
    (∃ u ∈ F.insts, Item.inst u.id ∈ F.live ∧ ∃ v p, F.isLocal v = true ∧ ReadsThrough u.kind p ∧ From F v p ∧
      ∃ q, From F v q ∧ q ∈ i.kind.ops ∧ (∀ s w, i.kind = .store s w → s = q) ∧
      (∀ t s, i.kind = .copy t s → t = q) ∧ (∀ s, i.kind ≠ .load s) ∧ (∀ b idx, i.kind ≠ .chain b idx)) := by
  rcases live_why hl with h | ⟨y, hy, h⟩
  · left
    simp only [Func.roots, List.mem_append, List.mem_map, List.mem_flatMap] at h
    rcases h with (⟨p, hp', e⟩ | h) | ⟨B, hB, ⟨j, hj, e⟩ | h⟩
    · simp only [Item.inst.injEq] at e
      exact absurd (List.mem_map.2 ⟨p, hp', e⟩) hp
    · split at h
      · exact absurd h blockDeps_inst
      · cases h
    · have hj := List.mem_filter.1 hj
      simp only [Item.inst.injEq] at e
      have := inst_unique hv (inst_mem hB hj.1) hi e
      subst this
      exact hj.2
    · split at h <;> simp at h
  · right
    cases y with
    | label b =>
      simp only [Func.deps] at h
      split at h
      · exact absurd h blockDeps_inst
      · cases h
    | merge b =>
      simp only [Func.deps] at h
      split at h
      · rcases List.mem_append.1 h with h | h
        · split at h <;> simp at h
        · exact absurd h blockDeps_inst
      · cases h
    | term b =>
      left
      simp only [Func.deps] at h
      split at h
      · rename_i B hb
        obtain ⟨hB, rfl⟩ := block_mem hb
        rcases List.mem_append.1 h with h | h
        · rcases List.mem_append.1 h with h | h
          · obtain ⟨o, ho, e⟩ := List.mem_map.1 h
            cases e
            exact ⟨B, hB, hy, ho⟩
          · simp at h
        · exact absurd h blockDeps_inst
      · cases h
    | inst u =>
      right
      simp only [Func.deps] at h
      split at h
      · rename_i w hw
        obtain ⟨hwm, rfl⟩ := find_mem hw
        rcases List.mem_append.1 h with h | h
        · left
          rcases List.mem_append.1 h with h | h
          · rcases List.mem_append.1 h with h | h
            · obtain ⟨o, ho, e⟩ := List.mem_map.1 h
              cases e
              exact ⟨w, hwm, hy, ho⟩
            · simp at h
          · split at h
            · exact absurd h blockDeps_inst
            · cases h
        · right
          obtain ⟨o, ho, e⟩ := List.mem_map.1 h
          cases e
          simp only [Func.loadDeps, List.mem_flatMap, List.mem_filter] at ho
          obtain ⟨v, ⟨hv1, hv2⟩, hst⟩ := ho
          obtain ⟨p, hp1, hp2⟩ := loaded_reads hv1
          obtain ⟨u', hu', e, q, hq⟩ := stores_from _ _ .self hst
          have := inst_unique hv hu' hi e
          subst this
          exact ⟨w, hwm, hy, v, p, hv2, hp1, hp2, q, hq⟩
      · cases h

end

end Verif.Adce
