import Verif.Adce.Marks
/-!
# What is left of the live blocks
-/
set_option linter.unusedSimpArgs false
set_option linter.unusedVariables false
set_option linter.unusedSectionVars false
namespace Verif.Adce
open Spec

/-- What is left of a live block. -/
structure Left (F : Func) (B B' : Block) : Prop where
  id : B'.id = B.id
  insts : B'.insts = B.insts.filter (fun i => F.live.contains (.inst i.id))
  folded : ∀ m, B.dead F.live = some m → B'.term = .br m
  kept : B.dead F.live = none → B'.term = B.term ∨
    (B.term = .unreachable ∧ (B'.term = .exit [] ∨ B'.term = .exitUndef))

section
variable {F : Func} (hv : Valid F) (hs : Structured F)
include hv

theorem not_dead_term {B : Block} (hB : B ∈ F.order) (hl : Item.label B.id ∈ F.live)
    (hd : B.dead F.live = none) : Item.term B.id ∈ F.live := by
  cases hm : B.merge with
  | none => exact alive_term hv hB (.label hl) hm
  | some g =>
    simp only [Block.dead, hm] at hd
    by_cases h : F.live.contains (.merge B.id) = true
    · exact merge_term hv hB (by simpa using h)
    · simp [h] at hd
      exact merge_term hv hB (by simpa using hd)

theorem left_plain {B : Block} (hB : B ∈ F.order) (hl : Item.label B.id ∈ F.live) :
    (∀ m, B.dead F.live = some m → Left F B (B.folded F.live m)) ∧
    (B.dead F.live = none → Left F B (B.kept F.live)) := by
  constructor
  · intro m hm
    refine ⟨rfl, rfl, ?_, ?_⟩
    · intro m' hm'
      rw [hm] at hm'
      cases hm'
      rfl
    · intro h
      rw [hm] at h
      cases h
  · intro hm
    refine ⟨rfl, rfl, ?_, ?_⟩
    · intro m' hm'
      rw [hm] at hm'
      cases hm'
    · intro _
      have := not_dead_term hv hB hl hm
      left
      simp [Block.kept, this]

theorem left_returning {B : Block} (hB : B ∈ F.order) (hl : Item.label B.id ∈ F.live) (v : Bool) :
    (∀ m, B.dead F.live = some m → Left F B ((B.returning v).folded F.live m)) ∧
    (B.dead F.live = none → Left F B ((B.returning v).kept
      (if (B.returning v).term = B.term then F.live else .term B.id :: F.live))) := by
  have hid : (B.returning v).id = B.id := by unfold Block.returning; split <;> rfl
  have hin : (B.returning v).insts = B.insts := by unfold Block.returning; split <;> rfl
  constructor
  · intro m hm
    refine ⟨hid, by simp [Block.folded, hin], ?_, ?_⟩
    · intro m' hm'
      rw [hm] at hm'
      cases hm'
      rfl
    · intro h
      rw [hm] at h
      cases h
  · intro hm
    have ht := not_dead_term hv hB hl hm
    by_cases hc : (B.returning v).term = B.term
    · simp only [hc, if_true]
      refine ⟨hid, by simp [Block.kept, hin], ?_, ?_⟩
      · intro m' hm'
        rw [hm] at hm'
        cases hm'
      · intro _
        left
        simp [Block.kept, hid, ht, hc]
    · simp only [hc, if_false]
      refine ⟨hid, ?_, ?_, ?_⟩
      · simp only [Block.kept, hin]
        apply List.filter_congr
        intro i _
        simp
      · intro m' hm'
        rw [hm] at hm'
        cases hm'
      · intro _
        right
        cases hbt : B.term <;> simp [Block.returning, hbt] at hc ⊢
        cases v <;> simp [Block.kept, Block.returning, hbt]

include hs

theorem kill_left : ∀ (r d : List Block) (skip : Option Id), F.order = d ++ r →
    (∀ m, skip = some m → ∃ H ∈ d, ∃ g, H.merge = some g ∧ g.block = m ∧ Item.merge H.id ∉ F.live ∧
      d.length ≤ pos F m) →
    ∃ o, kill F.live F.isVoid skip r = some o ∧ o.map (·.id) = r.map (·.id) ∧
      ∀ B ∈ r, Item.label B.id ∈ F.live → ∃ B' ∈ o, Left F B B' := by
  intro r
  induction r with
  | nil =>
    intro d skip hd hk
    cases skip with
    | none => exact ⟨[], by simp [kill], rfl, by simp⟩
    | some m =>
      exfalso
      obtain ⟨H, hH, g, hg, rfl, _, hp⟩ := hk m rfl
      have hH : H ∈ F.order := by rw [hd]; simp [hH]
      have := pos_lt (hv.merges H hH g hg _ (merge_label g))
      rw [hd] at this
      simp at this
      omega
  | cons b r ih =>
    intro d skip hd hk
    have hb : b ∈ F.order := by rw [hd]; simp
    have hpb := pos_append hv hd
    have hd' : F.order = (d ++ [b]) ++ r := by simp [hd]
    have hdead : ∀ m, b.dead F.live = some m → ∀ m', some m = some m' →
        ∃ H ∈ d ++ [b], ∃ g, H.merge = some g ∧ g.block = m' ∧ Item.merge H.id ∉ F.live ∧
        (d ++ [b]).length ≤ pos F m' := by
      intro m hm m' e
      cases e
      cases hbm : b.merge with
      | none => simp [Block.dead, hbm] at hm
      | some g =>
        simp only [Block.dead, hbm] at hm
        by_cases hc : F.live.contains (.merge b.id) = true
        · rw [if_pos hc] at hm
          cases hm
        · rw [if_neg hc] at hm
          cases hm
          refine ⟨b, by simp, g, hbm, rfl, by simpa using hc, ?_⟩
          have := hs.merge_after b hb g hbm
          simp
          omega
    cases skip with
    | none =>
      cases hm : b.dead F.live with
      | some m =>
        obtain ⟨o, ho, hid, hl⟩ := ih (d ++ [b]) (some m) hd' (hdead m hm)
        refine ⟨b.folded F.live m :: o, by simp [kill, hm, ho], by simp [hid, Block.folded], ?_⟩
        intro B hB hB'
        rcases List.mem_cons.1 hB with rfl | hB
        · exact ⟨_, List.mem_cons_self, (left_plain hv hb hB').1 m hm⟩
        · obtain ⟨B', h1, h2⟩ := hl B hB hB'
          exact ⟨B', by simp [h1], h2⟩
      | none =>
        obtain ⟨o, ho, hid, hl⟩ := ih (d ++ [b]) none hd' (by simp)
        refine ⟨b.kept F.live :: o, by simp [kill, hm, ho], by simp [hid, Block.kept], ?_⟩
        intro B hB hB'
        rcases List.mem_cons.1 hB with rfl | hB
        · exact ⟨_, List.mem_cons_self, (left_plain hv hb hB').2 hm⟩
        · obtain ⟨B', h1, h2⟩ := hl B hB hB'
          exact ⟨B', by simp [h1], h2⟩
    | some m =>
      obtain ⟨H, hH, g, hg, em, hdl, hp⟩ := hk m rfl
      have hHo : H ∈ F.order := by rw [hd]; simp [hH]
      have hpH : pos F H.id < d.length := by
        obtain ⟨d1, d2, e⟩ := List.append_of_mem hH
        have : F.order = d1 ++ H :: (d2 ++ b :: r) := by rw [hd, e]; simp
        rw [pos_append hv this, e]
        simp
      by_cases hbm : b.id = m
      · have hret : ∀ m', ((b.returning F.isVoid).folded F.live m').id = b.id := by
          intro m'; simp only [Block.folded]; unfold Block.returning; split <;> rfl
        have hret' : ∀ L, ((b.returning F.isVoid).kept L).id = b.id := by
          intro m'; simp only [Block.kept]; unfold Block.returning; split <;> rfl
        cases hm : b.dead F.live with
        | some m' =>
          obtain ⟨o, ho, hid, hl⟩ := ih (d ++ [b]) (some m') hd' (hdead m' hm)
          refine ⟨(b.returning F.isVoid).folded F.live m' :: o, by simp [kill, hbm, hm, ho],
            by simp [hid, hret], ?_⟩
          intro B hB hB'
          rcases List.mem_cons.1 hB with rfl | hB
          · exact ⟨_, List.mem_cons_self, (left_returning hv hb hB' _).1 m' hm⟩
          · obtain ⟨B', h1, h2⟩ := hl B hB hB'
            exact ⟨B', by simp [h1], h2⟩
        | none =>
          obtain ⟨o, ho, hid, hl⟩ := ih (d ++ [b]) none hd' (by simp)
          refine ⟨(b.returning F.isVoid).kept (if (b.returning F.isVoid).term = b.term then F.live
              else .term b.id :: F.live) :: o, ?_, by simp [hid, hret'], ?_⟩
          · simp only [kill, hbm, if_true, hm, ho, Option.map_some]
          · intro B hB hB'
            rcases List.mem_cons.1 hB with rfl | hB
            · exact ⟨_, List.mem_cons_self, (left_returning hv hb hB' _).2 hm⟩
            · obtain ⟨B', h1, h2⟩ := hl B hB hB'
              exact ⟨B', by simp [h1], h2⟩
      · have hpm : pos F b.id ≠ pos F m := fun e => hbm (pos_inj ⟨b, hb, rfl⟩ e)
        obtain ⟨o, ho, hid, hl⟩ := ih (d ++ [b]) (some m) hd' (by
          intro m' e
          cases e
          exact ⟨H, by simp [hH], g, hg, em, hdl, by simp; omega⟩)
        refine ⟨b :: o, by simp [kill, hbm, ho], by simp [hid], ?_⟩
        intro B hB hB'
        rcases List.mem_cons.1 hB with rfl | hB
        · exfalso
          refine dead_inside hv hs hb hdl ⟨H, hHo, rfl, g, hg, by omega, by rw [em]; omega⟩ (.label hB')
        · obtain ⟨B', h1, h2⟩ := hl B hB hB'
          exact ⟨B', by simp [h1], h2⟩

theorem run_some : ∃ F', F.run = some F' := by
  obtain ⟨o, ho, _⟩ := kill_left hv hs F.order [] none rfl (by simp)
  exact ⟨{ F with order := o }, by simp [Func.run, ho]⟩

theorem run_left {F' : Func} (h : F.run = some F') : F'.vars = F.vars ∧
    F'.order.map (·.id) = F.order.map (·.id) ∧
    ∀ B ∈ F.order, Item.label B.id ∈ F.live → ∃ B', F'.block B.id = some B' ∧ Left F B B' := by
  obtain ⟨o, ho, hid, hl⟩ := kill_left hv hs F.order [] none rfl (by simp)
  simp only [Func.run, ho, Option.map_some, Option.some.injEq] at h
  subst h
  refine ⟨rfl, hid, ?_⟩
  intro B hB hB'
  obtain ⟨B', h1, h2⟩ := hl B hB hB'
  refine ⟨B', ?_, h2⟩
  have hn : (o.map (·.id)).Nodup := by rw [hid]; exact hv.labels
  have := find_map (fun b : Block => b.id) hn h1
  rw [← h2.id]
  exact this

omit hv hs in
theorem left_body {B B' : Block} (h : Left F B B') :
    body B' = (body B).filter (fun i => F.live.contains (.inst i.id)) := by
  simp only [body, h.insts, List.filter_filter]
  apply List.filter_congr
  intro i _
  exact Bool.and_comm ..

end

end Verif.Adce
