import Verif.CodeSink.Graph

/-!
# Lemmas: a moved instruction leaves a valid function (C71)
-/

set_option linter.unusedSimpArgs false
set_option linter.unusedVariables false
set_option linter.unusedSectionVars false

namespace Verif.CodeSink.Spec
open Verif.IfConv Verif.IfConv.Spec

variable {V M : Type} {S : Sem V M} {fn : Fn}

/-- What is known of a move of `op d ops` from `o` to `t`. -/
structure Moved (fn : Fn) (o t : Lab) (d : Id) (ops : List Id) : Prop where
  ne : t ≠ o
  dom : Dominates fn o t
  reach : Reachable fn o
  mem : .op d ops ∈ (fn.block o).body
  listed : t ∈ fn.labels
  useBody : ∀ b i, i ∈ (fn.block b).body → d ∈ reads i → Dominates fn t b
  useTerm : ∀ b, d ∈ termReads (fn.block b).term → Dominates fn t b
  usePhi : ∀ b, ∀ φ ∈ (fn.block b).phis, ∀ p, (d, p) ∈ φ.args → Dominates fn t p

theorem mem_useBlocks (hv : Valid S fn) {d : Id} {u : Lab} : u ∈ useBlocks fn d ↔
    (∃ i ∈ (fn.block u).body, d ∈ reads i) ∨ d ∈ termReads (fn.block u).term ∨
      ∃ b, ∃ φ ∈ (fn.block b).phis, (d, u) ∈ φ.args := by
  simp only [useBlocks, List.mem_append, List.mem_filter, List.mem_flatMap, List.mem_map, Bool.or_eq_true,
    List.any_eq_true, List.contains_iff_mem, decide_eq_true_eq, Prod.exists]
  constructor
  · rintro (⟨_, h | h⟩ | ⟨b, _, φ, hφ, a, p, ⟨h, rfl⟩, rfl⟩)
    · exact .inl h
    · exact .inr (.inl h)
    · exact .inr (.inr ⟨b, φ, hφ, h⟩)
  · rintro (⟨i, hi, h⟩ | h | ⟨b, φ, hφ, h⟩)
    · refine .inl ⟨?_, .inl ⟨i, hi, h⟩⟩
      apply Classical.byContradiction
      intro hl
      rw [(hv.listed u hl).2.1] at hi
      simp at hi
    · refine .inl ⟨?_, .inr h⟩
      apply Classical.byContradiction
      intro hl
      rw [(hv.listed u hl).2.2] at h
      simp at h
    · refine .inr ⟨b, ?_, φ, hφ, d, u, ⟨h, rfl⟩, rfl⟩
      apply Classical.byContradiction
      intro hl
      rw [(hv.listed b hl).1] at hφ
      simp at hφ

theorem op_defs {o : Lab} {d : Id} {ops : List Id} (h : .op d ops ∈ (fn.block o).body) :
    d ∈ defs (fn.block o) :=
  List.mem_append_right _ (List.mem_map.2 ⟨_, h, rfl⟩)

theorem avail_dom (hv : Valid S fn) {o : Lab} {d : Id} (h : d ∈ defs (fn.block o)) {b}
    (ha : Avail S fn d b) : Dominates fn o b := by
  rcases ha with ⟨_, h'⟩ | ⟨b', h1, h2⟩
  · exact absurd h (h' o)
  · rw [hv.once d o b' h h1]; exact h2

/-- Uses are below the definition. -/
theorem uses_below (hv : Valid S fn) {o : Lab} {d : Id} (hdef : d ∈ defs (fn.block o)) {u}
    (hu : u ∈ useBlocks fn d) : Dominates fn o u := by
  rcases (mem_useBlocks hv).1 hu with ⟨i, hi, hd⟩ | hd | ⟨b, φ, hφ, hd⟩
  · obtain ⟨pre, post, e⟩ := List.append_of_mem hi
    rcases hv.ready u pre i post e d hd with h | h | h
    · rw [hv.once d o u hdef (List.mem_append_left _ h)]; exact Dominates.refl _
    · rw [hv.once d o u hdef (List.mem_append_right _ (by
        rw [e, List.map_append]; exact List.mem_append_left _ h))]
      exact Dominates.refl _
    · rcases h with ⟨_, h⟩ | ⟨b', _, h, h'⟩
      · exact absurd hdef (h o)
      · rw [hv.once d o b' hdef h]; exact h'
  · exact avail_dom hv hdef (hv.term u d hd)
  · exact avail_dom hv hdef (hv.phi_avail b φ hφ (d, u) hd)

/-- The search finds a good block. -/
theorem sink_moved (hv : Valid S fn) {sync kind bound o d ops fn'} (hr : Reachable fn o)
    (h : sink fn sync kind bound o d ops = some fn') :
    ∃ t, fn' = move fn o t (.op d ops) ∧ Moved fn o t d ops ∧ movable sync (kind d) = true := by
  unfold sink at h
  split at h
  · rename_i hc
    split at h
    · rename_i t ht
      cases h
      unfold newBlock at ht
      split at ht
      · rename_i b hb
        split at ht
        · cases ht
        · rename_i hne
          cases ht
          have hdef := op_defs hc.1
          obtain ⟨h1, h2, h3⟩ := search_spec hv _ _ _ (Dominates.refl o) (by
            exact fun u hu => uses_below hv hdef hu) hb
          refine ⟨t, rfl, ⟨hne, h1, hr, hc.1, ?_, ?_, ?_, ?_⟩, hc.2⟩
          · rcases h3 with e | h3
            · exact absurd e hne
            · exact h3
          · exact fun b i hi hd => h2 b ((mem_useBlocks hv).2 (.inl ⟨i, hi, hd⟩))
          · exact fun b hd => h2 b ((mem_useBlocks hv).2 (.inr (.inl hd)))
          · exact fun b φ hφ p hd => h2 p ((mem_useBlocks hv).2 (.inr (.inr ⟨b, φ, hφ, hd⟩)))
      · cases ht
    · cases h
  · cases h

/-! ### The graph is the same -/

section graph
variable {o t : Lab} {i : Inst}

theorem move_term (b : Lab) : ((move fn o t i).block b).term = (fn.block b).term := by
  simp only [move]; split
  · rfl
  · split <;> rfl

theorem move_phis (b : Lab) : ((move fn o t i).block b).phis = (fn.block b).phis := by
  simp only [move]; split
  · rfl
  · split <;> rfl

theorem move_merge (b : Lab) : ((move fn o t i).block b).merge = (fn.block b).merge := by
  simp only [move]; split
  · rfl
  · split <;> rfl

theorem move_succs (b : Lab) : (move fn o t i).succs b = fn.succs b := by
  simp [Fn.succs, move_term]

theorem move_preds (b : Lab) : (move fn o t i).preds b = fn.preds b := by
  unfold Fn.preds
  have : (move fn o t i).succs = fn.succs := funext move_succs
  rw [this]; rfl

theorem move_path {l} : Path (move fn o t i) l ↔ Path fn l := by
  constructor
  · intro h
    induction h with
    | entry => exact .entry
    | next _ hs ih => exact ih.next (by rwa [move_succs] at hs)
  · intro h
    induction h with
    | entry => exact .entry (fn := move fn o t i)
    | next _ hs ih => exact ih.next (by rwa [move_succs])

theorem move_dom {a b} : Dominates (move fn o t i) a b ↔ Dominates fn a b := by
  unfold Dominates
  constructor <;> intro h l hp
  · exact h l (move_path.2 hp)
  · exact h l (move_path.1 hp)

theorem move_reachable {b} : Reachable (move fn o t i) b ↔ Reachable fn b := by
  unfold Reachable
  simp only [move_path]

end graph

/-! ### Definitions -/

variable {o t : Lab} {d : Id} {ops : List Id}

theorem Moved.split (h : Moved fn o t d ops) : ∃ pre post, (fn.block o).body = pre ++ .op d ops :: post ∧
    .op d ops ∉ pre ∧ (fn.block o).body.erase (.op d ops) = pre ++ post := by
  obtain ⟨pre, post, h1, h2, h3⟩ := List.exists_erase_eq h.mem
  exact ⟨pre, post, h2, h1, h3⟩

theorem Moved.body_o (h : Moved fn o t d ops) :
    ((move fn o t (.op d ops)).block o).body = (fn.block o).body.erase (.op d ops) := by
  simp [move]

theorem Moved.body_t (h : Moved fn o t d ops) :
    ((move fn o t (.op d ops)).block t).body = .op d ops :: (fn.block t).body := by
  simp [move, h.ne]

theorem Moved.body_other (h : Moved fn o t d ops) {b} (h1 : b ≠ o) (h2 : b ≠ t) :
    (move fn o t (.op d ops)).block b = fn.block b := by
  simp [move, h1, h2]

/-- `d` is defined only in `o`, by the moved instruction. -/
theorem Moved.d_once (h : Moved fn o t d ops) (hv : Valid S fn) {b} (hb : d ∈ defs (fn.block b)) : b = o :=
  hv.once d b o hb (op_defs h.mem)

theorem Moved.d_split (h : Moved fn o t d ops) (hv : Valid S fn) {pre post}
    (e : (fn.block o).body = pre ++ .op d ops :: post) :
    d ∉ (fn.block o).phis.map Phi.id ∧ d ∉ pre.map instId ∧ d ∉ post.map instId := by
  have hn := hv.nodup o
  unfold defs at hn
  rw [e, List.map_append, List.map_cons] at hn
  have h1 := List.nodup_append.1 hn
  have h2 := List.nodup_append.1 h1.2.1
  refine ⟨?_, ?_, ?_⟩
  · intro hd; exact h1.2.2 d hd d (by simp [instId]) rfl
  · intro hd; exact h2.2.2 d hd d (by simp [instId]) rfl
  · exact (List.nodup_cons.1 h2.2.1).1

theorem Moved.perm_o (h : Moved fn o t d ops) :
    (defs (fn.block o)).Perm (d :: defs ((move fn o t (.op d ops)).block o)) := by
  obtain ⟨pre, post, e, _, e2⟩ := h.split
  unfold defs
  rw [h.body_o, move_phis, e2, e]
  simp only [List.map_append, List.map_cons, instId]
  rw [← List.append_assoc, ← List.append_assoc]
  exact List.perm_middle

theorem Moved.perm_t (h : Moved fn o t d ops) :
    (defs ((move fn o t (.op d ops)).block t)).Perm (d :: defs (fn.block t)) := by
  unfold defs
  rw [h.body_t, move_phis]
  simp only [List.map_append, List.map_cons, instId]
  exact List.perm_middle

theorem Moved.mem_defs (h : Moved fn o t d ops) (hv : Valid S fn) {x b} :
    x ∈ defs ((move fn o t (.op d ops)).block b) ↔ (x = d ∧ b = t) ∨ (x ≠ d ∧ x ∈ defs (fn.block b)) := by
  by_cases hbo : b = o
  · subst hbo
    have hp := h.perm_o
    have hn := (hp.nodup_iff.1 (hv.nodup b))
    have hd := (List.nodup_cons.1 hn).1
    have hm := hp.mem_iff (a := x)
    rw [List.mem_cons] at hm
    constructor
    · intro hx
      have hxd : x ≠ d := fun e => hd (e ▸ hx)
      exact .inr ⟨hxd, hm.2 (.inr hx)⟩
    · rintro (⟨_, e⟩ | ⟨hxd, hx⟩)
      · exact absurd e.symm h.ne
      · rcases hm.1 hx with e | hx
        · exact absurd e hxd
        · exact hx
  · by_cases hbt : b = t
    · subst hbt
      rw [h.perm_t.mem_iff, List.mem_cons]
      constructor
      · rintro (e | hx)
        · exact .inl ⟨e, rfl⟩
        · refine .inr ⟨?_, hx⟩
          rintro rfl
          exact hbo (h.d_once hv hx)
      · rintro (⟨e, _⟩ | ⟨_, hx⟩)
        · exact .inl e
        · exact .inr hx
    · rw [h.body_other hbo hbt]
      constructor
      · intro hx
        refine .inr ⟨?_, hx⟩
        rintro rfl
        exact hbo (h.d_once hv hx)
      · rintro (⟨_, e⟩ | ⟨_, hx⟩)
        · exact absurd e hbt
        · exact hx

/-- No use of `d` in `o`. -/
theorem Moved.not_dom (h : Moved fn o t d ops) : ¬ Dominates fn t o := fun hd =>
  h.ne (hd.antisymm h.dom h.reach)

theorem Moved.outside (h : Moved fn o t d ops) (hv : Valid S fn) {x b} (hx : x ≠ d)
    (ho : Outside S fn x b) : Outside S (move fn o t (.op d ops)) x b := by
  rcases ho with ⟨h1, h2⟩ | ⟨b', h1, h2, h3⟩
  · refine .inl ⟨h1, fun b' hb' => ?_⟩
    rcases (h.mem_defs hv).1 hb' with ⟨e, _⟩ | ⟨_, hb'⟩
    · exact hx e
    · exact h2 b' hb'
  · exact .inr ⟨b', h1, (h.mem_defs hv).2 (.inr ⟨hx, h2⟩), move_dom.2 h3⟩

theorem Moved.avail (h : Moved fn o t d ops) (hv : Valid S fn) {x b} (hd : x = d → Dominates fn t b)
    (ho : Avail S fn x b) : Avail S (move fn o t (.op d ops)) x b := by
  by_cases hx : x = d
  · exact .inr ⟨t, (h.mem_defs hv).2 (.inl ⟨hx, rfl⟩), move_dom.2 (hd hx)⟩
  · rcases ho with ⟨h1, h2⟩ | ⟨b', h2, h3⟩
    · refine .inl ⟨h1, fun b' hb' => ?_⟩
      rcases (h.mem_defs hv).1 hb' with ⟨e, _⟩ | ⟨_, hb'⟩
      · exact hx e
      · exact h2 b' hb'
    · exact .inr ⟨b', (h.mem_defs hv).2 (.inr ⟨hx, h2⟩), move_dom.2 h3⟩

/-- The operands come from before `o`, or from `o`. -/
theorem Moved.ops_ready (h : Moved fn o t d ops) (hv : Valid S fn) {pre post}
    (e : (fn.block o).body = pre ++ .op d ops :: post) {x} (hx : x ∈ ops) :
    x ≠ d ∧ (x ∈ (fn.block o).phis.map Phi.id ∨ x ∈ pre.map instId ∨ Outside S fn x o) := by
  have hr := hv.ready o pre _ post e x hx
  refine ⟨?_, hr⟩
  rintro rfl
  have hd := h.d_split hv e
  rcases hr with h1 | h1 | ⟨_, h1⟩ | ⟨b', h1, h2, _⟩
  · exact hd.1 h1
  · exact hd.2.1 h1
  · exact h1 o (op_defs h.mem)
  · exact h1 (h.d_once hv h2)

theorem Moved.valid (h : Moved fn o t d ops) (hv : Valid S fn) :
    Valid S (move fn o t (.op d ops)) where
  entry_phis := by rw [move_phis]; exact hv.entry_phis
  entry_preds b := by rw [move_succs]; exact hv.entry_preds b
  labels b := by rw [move_succs]; exact hv.labels b
  phi_preds b φ hφ := by simp only [move_succs]; rw [move_phis] at hφ; exact hv.phi_preds b φ hφ
  phi_nodup b := by rw [move_phis]; exact hv.phi_nodup b
  phi_avail b φ hφ a ha := by
    rw [move_phis] at hφ
    refine h.avail hv (fun e => ?_) (hv.phi_avail b φ hφ a ha)
    exact h.usePhi b φ hφ a.2 (by rw [← e]; exact ha)
  cond_avail b c t' f ht := by
    rw [move_term] at ht
    refine h.avail hv (fun e => ?_) (hv.cond_avail b c t' f ht)
    exact h.useTerm b (by rw [ht, ← e]; simp [termReads])
  listed b hb := by
    have hb' : b ∉ fn.labels := hb
    obtain ⟨h1, h2, h3⟩ := hv.listed b hb'
    refine ⟨by rw [move_phis]; exact h1, ?_, by rw [move_term]; exact h3⟩
    by_cases hbo : b = o
    · subst hbo
      have := h.mem
      rw [h2] at this; simp at this
    · by_cases hbt : b = t
      · subst hbt; exact absurd h.listed hb'
      · rw [h.body_other hbo hbt]; exact h2
  targets b s hs := by rw [move_succs] at hs; exact hv.targets b s hs
  once x b b' hb hb' := by
    rcases (h.mem_defs hv).1 hb with ⟨e, e1⟩ | ⟨e, hb⟩ <;> rcases (h.mem_defs hv).1 hb' with ⟨e', e1'⟩ | ⟨e', hb'⟩
    · rw [e1, e1']
    · exact absurd e e'
    · exact absurd e' e
    · exact hv.once x b b' hb hb'
  nodup b := by
    by_cases hbo : b = o
    · subst hbo
      exact (List.nodup_cons.1 (h.perm_o.nodup_iff.1 (hv.nodup b))).2
    · by_cases hbt : b = t
      · subst hbt
        refine h.perm_t.nodup_iff.2 (List.nodup_cons.2 ⟨?_, hv.nodup b⟩)
        intro hd
        exact hbo (h.d_once hv hd)
      · rw [h.body_other hbo hbt]; exact hv.nodup b
  ready b pre j post e x hx := by
    rw [move_phis]
    by_cases hbo : b = o
    · subst hbo
      rw [h.body_o] at e
      obtain ⟨P, Q, e1, _, e2⟩ := h.split
      rw [e2] at e
      have hj : j ∈ (fn.block b).body := by
        refine List.mem_of_mem_erase (b := Inst.op d ops) ?_
        rw [e2, e]; simp
      have hxd : x ≠ d := by
        rintro rfl
        exact h.not_dom (h.useBody b j hj hx)
      rcases List.append_eq_append_iff.1 e with ⟨a, h1, h2⟩ | ⟨a, h1, h2⟩
      · -- `j` after the moved instruction
        rcases hv.ready b (P ++ .op d ops :: a) j post (by rw [e1, h2]; simp) x hx with h' | h' | h'
        · exact .inl h'
        · refine .inr (.inl ?_)
          rw [h1]
          simp only [List.map_append, List.map_cons, List.mem_append, List.mem_cons, instId] at h' ⊢
          rcases h' with h' | h' | h'
          · exact .inl h'
          · exact absurd h' hxd
          · exact .inr h'
        · exact .inr (.inr (h.outside hv hxd h'))
      · cases a with
        | nil =>
          simp only [List.append_nil, List.nil_append] at h1 h2
          rcases hv.ready b (P ++ [.op d ops]) j post (by rw [e1, ← h2]; simp) x hx with h' | h' | h'
          · exact .inl h'
          · refine .inr (.inl ?_)
            rw [← h1]
            simp only [List.map_append, List.map_cons, List.map_nil, List.mem_append, List.mem_cons, instId,
              List.not_mem_nil, or_false] at h'
            rcases h' with h' | h'
            · exact h'
            · exact absurd h' hxd
          · exact .inr (.inr (h.outside hv hxd h'))
        | cons y a =>
          simp only [List.cons_append, List.cons.injEq] at h2
          obtain ⟨rfl, h2⟩ := h2
          rcases hv.ready b pre j (a ++ .op d ops :: Q) (by rw [e1, h1]; simp) x hx with h' | h' | h'
          · exact .inl h'
          · exact .inr (.inl h')
          · exact .inr (.inr (h.outside hv hxd h'))
    · by_cases hbt : b = t
      · subst hbt
        rw [h.body_t] at e
        cases pre with
        | nil =>
          simp only [List.nil_append, List.cons.injEq] at e
          obtain ⟨rfl, e⟩ := e
          obtain ⟨P, Q, e1, _, e2⟩ := h.split
          obtain ⟨hxd, hr⟩ := h.ops_ready hv e1 hx
          refine .inr (.inr ?_)
          have hin : x ∈ defs (fn.block o) → Outside S (move fn o b (.op d ops)) x b := fun hx' =>
            .inr ⟨o, Ne.symm h.ne, (h.mem_defs hv).2 (.inr ⟨hxd, hx'⟩), move_dom.2 h.dom⟩
          rcases hr with h' | h' | h' | ⟨b', h1, h2, h3⟩
          · exact hin (List.mem_append_left _ h')
          · exact hin (List.mem_append_right _ (by
              rw [e1, List.map_append]; exact List.mem_append_left _ h'))
          · exact h.outside hv hxd (.inl h')
          · refine h.outside hv hxd (.inr ⟨b', ?_, h2, h3.trans h.dom⟩)
            rintro rfl
            exact h.not_dom h3
        | cons y pre =>
          simp only [List.cons_append, List.cons.injEq] at e
          obtain ⟨rfl, e⟩ := e
          by_cases hxd : x = d
          · exact .inr (.inl (by simp [instId, hxd]))
          · rcases hv.ready b pre j post e x hx with h' | h' | h'
            · exact .inl h'
            · exact .inr (.inl (by simp only [List.map_cons, List.mem_cons]; exact .inr h'))
            · exact .inr (.inr (h.outside hv hxd h'))
      · rw [h.body_other hbo hbt] at e
        by_cases hxd : x = d
        · subst hxd
          have hj : j ∈ (fn.block b).body := by rw [e]; simp
          exact .inr (.inr (.inr ⟨t, Ne.symm hbt, (h.mem_defs hv).2 (.inl ⟨rfl, rfl⟩),
            move_dom.2 (h.useBody b j hj hx)⟩))
        · rcases hv.ready b pre j post e x hx with h' | h' | h'
          · exact .inl h'
          · exact .inr (.inl h')
          · exact .inr (.inr (h.outside hv hxd h'))
  term b x hx := by
    rw [move_term] at hx
    exact h.avail hv (fun e => h.useTerm b (e ▸ hx)) (hv.term b x hx)
  header b m df hm := by
    rw [move_merge] at hm
    obtain ⟨h1, h2, h3⟩ := hv.header b m df hm
    exact ⟨move_dom.2 h1, h2, h3⟩

end Verif.CodeSink.Spec
