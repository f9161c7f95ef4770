import Verif.IfConv.Graph

/-!
# Lemmas: runs (C70)
-/

set_option linter.unusedSimpArgs false
set_option linter.unusedVariables false
set_option linter.unusedSectionVars false

namespace Verif.IfConv.Spec

variable {V M : Type} {S : Sem V M} {fn : Fn}

theorem Exec.same {is e m e' m'} (h : Exec S is e m e' m') (d : Id) (hd : d ∉ is.map instId) :
    e' d = e d := by
  induction h with
  | nil => rfl
  | @op i ops is e m xs x m1 e2 m2 _ _ _ ih =>
    simp only [List.map_cons, instId, List.mem_cons, not_or] at hd
    rw [ih hd.2]; simp [define, hd.1]
  | @select i c t f is e m vc vt vf e2 m2 _ _ _ _ ih =>
    simp only [List.map_cons, instId, List.mem_cons, not_or] at hd
    rw [ih hd.2]; simp [define, hd.1]

theorem Exec.defined {is e m e' m'} (h : Exec S is e m e' m') (d : Id)
    (hd : d ∈ is.map instId ∨ e d ≠ none) : e' d ≠ none := by
  induction h with
  | nil => simpa using hd
  | @op i ops is e m xs x m1 e2 m2 _ _ _ ih =>
    apply ih
    simp only [List.map_cons, instId, List.mem_cons] at hd
    by_cases hi : d = i
    · right; simp [define, hi]
    · rcases hd with (h | h) | h
      · exact absurd h hi
      · exact .inl h
      · right; simpa [define, hi] using h
  | @select i c t f is e m vc vt vf e2 m2 _ _ _ _ ih =>
    apply ih
    simp only [List.map_cons, instId, List.mem_cons] at hd
    by_cases hi : d = i
    · right; simp [define, hi]
    · rcases hd with (h | h) | h
      · exact absurd h hi
      · exact .inl h
      · right; simpa [define, hi] using h

theorem phiEnv_same {e : Env V} {p φs} (d : Id) (hd : d ∉ φs.map Phi.id) : phiEnv e p φs d = e d := by
  unfold phiEnv
  rw [List.find?_eq_none.2]
  intro φ hφ
  simp only [decide_eq_true_eq]
  intro e
  exact hd (List.mem_map.2 ⟨φ, hφ, e⟩)

theorem phiEnv_defined {e : Env V} {p φs} (h : ∀ φ ∈ φs, phiVal e p φ ≠ none) (d : Id)
    (hd : d ∈ φs.map Phi.id ∨ e d ≠ none) : phiEnv e p φs d ≠ none := by
  unfold phiEnv
  cases hf : φs.find? (fun φ => decide (φ.id = d)) with
  | some φ => exact h φ (List.mem_of_find?_eq_some hf)
  | none =>
    rcases hd with hd | hd
    · obtain ⟨φ, hφ, e⟩ := List.mem_map.1 hd
      have := List.find?_eq_none.1 hf φ hφ
      simp [e] at this
    · exact hd

theorem Step.env_same {c c' : Config V M} (h : Step S fn c c') (d : Id)
    (hd : d ∉ defs (fn.block c'.block)) : c'.env d = c.env d := by
  cases h with
  | mk hg hp hx =>
    simp only [defs, List.mem_append, not_or] at hd
    exact (hx.same d hd.2).trans (phiEnv_same d hd.1)

theorem Step.env_defined {c c' : Config V M} (h : Step S fn c c') (d : Id)
    (hd : d ∈ defs (fn.block c'.block) ∨ c.env d ≠ none) : c'.env d ≠ none := by
  cases h with
  | mk hg hp hx =>
    simp only [defs, List.mem_append] at hd
    apply hx.defined
    rcases hd with (h | h) | h
    · exact .inr (phiEnv_defined hp d (.inl h))
    · exact .inl h
    · exact .inr (phiEnv_defined hp d (.inr h))

theorem Goes.succ {e : Env V} {m t b} (h : Goes S e m t b) : b ∈ t.succs := by
  cases h with
  | br => simp [Term.succs]
  | cond h => simp only [Term.succs]; split <;> simp
  | multi _ _ h => exact h

theorem Step.succ {c c' : Config V M} (h : Step S fn c c') : c'.block ∈ fn.succs c.block := by
  cases h with
  | mk hg _ _ => exact hg.succ

theorem Reach.path {l} {c : Config V M} (h : Reach S fn l c) : Path fn l ∧ ∃ l', l = c.block :: l' := by
  induction h with
  | start hb => exact ⟨.entry, [], by rw [hb.1]⟩
  | step hr hs ih =>
    obtain ⟨hp, l', rfl⟩ := ih
    exact ⟨hp.next hs.succ, _, rfl⟩

/-- Ids of blocks that were passed have values. -/
theorem Reach.defined (hv : Valid S fn) {l} {c : Config V M} (h : Reach S fn l c) (d : Id)
    (hd : S.start d ≠ none ∨ ∃ b ∈ l, d ∈ defs (fn.block b)) : c.env d ≠ none := by
  induction h with
  | start hb =>
    apply hb.2.defined
    rcases hd with h | ⟨b, hb', h⟩
    · exact .inr h
    · simp at hb'; subst hb'
      simp only [defs, hv.entry_phis, List.map_nil, List.nil_append] at h
      exact .inl h
  | step hr hs ih =>
    apply hs.env_defined
    rcases hd with h | ⟨b, hb', h⟩
    · exact .inr (ih (.inl h))
    · rcases List.mem_cons.1 hb' with rfl | hb'
      · exact .inl h
      · exact .inr (ih (.inr ⟨b, hb', h⟩))

/-- The condition of the last branch still has the value it had, if nothing has redefined it. -/
theorem Reach.branch {l} {g : Config V M} (h : Reach S fn l g) {k t f c x : Nat}
    (ht : (fn.block c).term = .cond k t f) : ∀ {u rest}, l = u ++ x :: c :: rest →
    (∀ y ∈ u ++ [x], k ∉ defs (fn.block y)) →
    ∃ v, g.env k = some v ∧ x = if S.truth v then t else f := by
  induction h with
  | start hb =>
    intro u rest e
    cases u with
    | nil => simp at e
    | cons y u => simp at e
  | @step l g g' hr hs ih =>
    intro u rest e hk
    cases u with
    | nil =>
      simp only [List.nil_append, List.cons.injEq] at e
      obtain ⟨e1, e2⟩ := e
      obtain ⟨_, l', e3⟩ := hr.path
      have hc : g.block = c := by rw [e3] at e2; exact (List.cons.inj e2).1
      have hsame := hs.env_same k (by rw [e1]; exact hk x (by simp))
      cases hs with
      | mk hg hp hx =>
        simp only at hc e1 hsame
        rw [hc, ht] at hg
        simp only [hsame]
        generalize e5 : Term.cond k t f = T at hg
        cases hg with
        | br => cases e5
        | cond hv => cases e5; exact ⟨_, hv, e1.symm⟩
        | multi _ _ _ => cases e5
    | cons y u =>
      simp only [List.cons_append, List.cons.injEq] at e
      obtain ⟨e1, e2⟩ := e
      obtain ⟨v, h1, h2⟩ := ih e2 (fun z hz => hk z (by simp at hz ⊢; exact .inr hz))
      exact ⟨v, by rw [hs.env_same k (by rw [e1]; exact hk y (by simp))]; exact h1, h2⟩

theorem mem_preds (hv : Valid S fn) {p b : Lab} : p ∈ fn.preds b ↔ b ∈ fn.succs p := by
  unfold Fn.preds
  simp only [List.mem_flatMap, List.mem_map, List.mem_filter, decide_eq_true_eq]
  constructor
  · rintro ⟨q, _, x, ⟨hx, rfl⟩, rfl⟩
    exact hx
  · intro h
    exact ⟨p, hv.labels p (List.ne_nil_of_mem h), b, ⟨h, rfl⟩, rfl⟩

theorem preds_twice (hv : Valid S fn) {c b p0 p1 : Lab} (hp : fn.preds b = [p0, p1]) (hne : p0 ≠ p1)
    (hs : fn.succs c = [b, b]) : False := by
  have hc : c ∈ fn.labels := hv.labels c (by rw [hs]; simp)
  have hsub : [c, c].Sublist (fn.preds b) := by
    unfold Fn.preds
    rw [List.flatMap_def]
    refine List.Sublist.trans ?_ (List.sublist_flatten_of_mem (List.mem_map.2 ⟨c, hc, rfl⟩))
    rw [hs]; simp
  rw [hp] at hsub
  have : [c, c].Nodup := hsub.nodup (by simp [hne])
  simp at this

/-- What the checks of the pass come to. -/
theorem good (hv : Valid S fn) {A : Info} (hr : Right fn A) (hred : Reducible fn) (ha : SidesApart fn)
    {b c k t f} (h : checkBlock fn A b = some (c, k, t, f)) :
    (fn.block c).term = .cond k t f ∧ ∃ p0 p1, fn.preds b = [p0, p1] ∧ Good fn c t f b p0 p1 := by
  unfold checkBlock at h
  split at h
  · rename_i p0 p1 hp
    split at h
    · cases h
    · rename_i h1
      split at h
      · cases h
      · rename_i h2
        split at h
        · cases h
        · rename_i hne
          split at h
          · cases h
          · rename_i c' hc
            split at h
            · rename_i k' t' f' ht
              split at h
              · rename_i hm
                simp only [Option.some.injEq, Prod.mk.injEq] at h
                obtain ⟨rfl, rfl, rfl, rfl⟩ := h
                obtain ⟨r0, r1, d0, d1, near⟩ := hr.common _ _ _ hc
                have hm' : (fn.block c').merge = some (.selection b false) := by
                  unfold Merge.isSelectionTo at hm
                  split at hm
                  · rename_i m df he
                    simp at hm
                    rw [he, hm.1, hm.2]
                  · cases hm
                refine ⟨ht, p0, p1, hp, d0, d1, near, r0, r1, ?_, ?_, hne, ?_, by simp [Fn.succs, ht, Term.succs], ?_,
                  hred, ha _ _ _ _ _ ht hm'⟩
                · rw [← hr.dom _ _ r0]; exact h1
                · rw [← hr.dom _ _ r1]; exact h2
                · intro p; rw [← mem_preds hv, hp]; simp
                · rintro ⟨rfl, rfl⟩
                  exact preds_twice (c := c') hv hp hne (by simp [Fn.succs, ht, Term.succs])
              · cases h
            · cases h
  · cases h

/-- On arrival the condition says where one comes from. -/
theorem arrive (hv : Valid S fn) {A : Info} (hr : Right fn A) {b c k t f p0 p1}
    (ht : (fn.block c).term = .cond k t f) (g : Good fn c t f b p0 p1) {l} {s : Config V M}
    (h : Reach S fn l s) (hgo : Goes S s.env s.mem (fn.block s.block).term b) :
    ∃ v, s.env k = some v ∧ Taken fn c b (if S.truth v then t else f) s.block := by
  have hsucc : b ∈ fn.succs s.block := hgo.succ
  have hp := (g.preds _).1 hsucc
  by_cases hc : s.block = c
  · rw [hc, ht] at hgo
    generalize e5 : Term.cond k t f = T at hgo
    cases hgo with
    | br => cases e5
    | multi _ _ _ => cases e5
    | cond hv' => cases e5; exact ⟨_, hv', .inl ⟨hc, rfl⟩⟩
  · obtain ⟨hpath, l', rfl⟩ := h.path
    obtain ⟨x, w, rest, e, hx, hw, hcw, hbw⟩ := g.side hp hc hpath
    obtain ⟨u, rfl⟩ := hw.last
    have hk : ∀ y ∈ u ++ [x], k ∉ defs (fn.block y) := by
      intro y hy hd
      rcases hv.cond_avail c k t f ht with ⟨_, h'⟩ | ⟨b', h1, h2⟩
      · exact h' y hd
      · have : y = b' := by
          have e1 := hr.defBlock k y hd
          have e2 := hr.defBlock k b' h1
          rw [e1] at e2; exact Option.some.inj e2
        subst this
        exact strict_not_on h2 g.reach (g.dp hp) hw hcw hy
    obtain ⟨v, h1, h2⟩ := h.branch ht (u := u) (rest := rest) (by rw [e]; simp) hk
    exact ⟨v, h1, .inr ⟨hc, u ++ [x], h2 ▸ hw, hcw, hbw⟩⟩

/-! ### Selects in a row -/

/-- An environment in which some phis have got their values. -/
def upd (sel : Phi → Bool) (val : Phi → Option V) (φs : List Phi) (E : Env V) : Env V := fun d =>
  match φs.find? (fun φ => decide (φ.id = d) && sel φ) with
  | some φ => val φ
  | none => E d

theorem exec_selects {g : Phi → Option Inst} {val : Phi → Option V} {body m e' m'} {k : Id} {vk : V}
    (ids : List Id) (hk : k ∉ ids) : ∀ (φs : List Phi) (E : Env V), E k = some vk →
    (φs.map Phi.id).Nodup → (∀ φ ∈ φs, φ.id ∈ ids) →
    (∀ φ ∈ φs, ∀ s, g φ = some s → ∃ t f vt vf, s = .select φ.id k t f ∧ t ∉ ids ∧ f ∉ ids ∧
      E t = some vt ∧ E f = some vf ∧ val φ = some (if S.truth vk then vt else vf)) →
    (Exec S (φs.filterMap g ++ body) E m e' m' ↔
      Exec S body (upd (fun φ => (g φ).isSome) val φs E) m e' m')
  | [], E, _, _, _, _ => by
    have : upd (fun φ => (g φ).isSome) val [] E = E := by funext d; simp [upd]
    rw [this]; simp
  | φ :: φs, E, hE, hn, hi, h => by
    simp only [List.map_cons, List.nodup_cons] at hn
    cases hg : g φ with
    | none =>
      have e : upd (fun φ => (g φ).isSome) val (φ :: φs) E = upd (fun φ => (g φ).isSome) val φs E := by
        funext d; simp [upd, List.find?_cons, hg]
      rw [e, List.filterMap_cons_none hg]
      exact exec_selects ids hk φs E hE hn.2 (fun ψ hψ => hi ψ (List.mem_cons_of_mem _ hψ))
        (fun ψ hψ => h ψ (List.mem_cons_of_mem _ hψ))
    | some s =>
      obtain ⟨t, f, vt, vf, rfl, ht, hf, h1, h2, h3⟩ := h φ List.mem_cons_self s hg
      rw [List.filterMap_cons_some hg, List.cons_append]
      have hid := hi φ List.mem_cons_self
      have ih := exec_selects (body := body) (m := m) (e' := e') (m' := m') (vk := vk)
        ids hk φs (define E φ.id (if S.truth vk then vt else vf))
        (by have : k ≠ φ.id := fun e => hk (e ▸ hid)
            simp [define, this, hE]) hn.2
        (fun ψ hψ => hi ψ (List.mem_cons_of_mem _ hψ)) (by
          intro ψ hψ s hs
          obtain ⟨t', f', vt', vf', e, ht', hf', h1', h2', h3'⟩ := h ψ (List.mem_cons_of_mem _ hψ) s hs
          have n1 : t' ≠ φ.id := fun e => ht' (e ▸ hid)
          have n2 : f' ≠ φ.id := fun e => hf' (e ▸ hid)
          exact ⟨t', f', vt', vf', e, ht', hf', by simp [define, n1, h1'], by simp [define, n2, h2'], h3'⟩)
      have e : upd (fun φ => (g φ).isSome) val (φ :: φs) E =
          upd (fun φ => (g φ).isSome) val φs (define E φ.id (if S.truth vk then vt else vf)) := by
        funext d
        simp only [upd, List.find?_cons, hg, Option.isSome_some, Bool.and_true]
        by_cases hd : φ.id = d
        · have hnone : φs.find? (fun φ => decide (φ.id = d) && (g φ).isSome) = none := by
            rw [List.find?_eq_none]
            intro ψ hψ
            have : ψ.id ≠ d := fun e => hn.1 (List.mem_map.2 ⟨ψ, hψ, e.trans hd.symm⟩)
            simp [this]
          rw [hnone]
          simp [hd, define, h3]
        · simp only [hd, decide_false]
          have : d ≠ φ.id := Ne.symm hd
          cases φs.find? (fun φ => decide (φ.id = d) && (g φ).isSome) <;> simp [define, this]
      rw [e, ← ih]
      constructor
      · intro hx
        cases hx with
        | select hc ht' hf' hx =>
          rw [hE] at hc; rw [h1] at ht'; rw [h2] at hf'
          cases hc; cases ht'; cases hf'
          exact hx
      · intro hx
        exact .select hE h1 h2 hx

theorem upd_phiEnv (e : Env V) (p : Lab) (sel : Phi → Bool) : ∀ (φs : List Phi), (φs.map Phi.id).Nodup →
    upd sel (phiVal e p) φs (phiEnv e p (φs.filter fun φ => !sel φ)) = phiEnv e p φs := by
  intro φs hn
  funext d
  induction φs with
  | nil => simp [upd, phiEnv]
  | cons φ φs ih =>
    simp only [List.map_cons, List.nodup_cons] at hn
    have ih := ih hn.2
    simp only [upd, phiEnv] at ih ⊢
    simp only [List.find?_cons]
    by_cases hd : φ.id = d
    · have hno : ∀ ψ ∈ φs, ψ.id ≠ d := fun ψ hψ e => hn.1 (List.mem_map.2 ⟨ψ, hψ, e.trans hd.symm⟩)
      have hnone : φs.find? (fun φ => decide (φ.id = d) && sel φ) = none := by
        rw [List.find?_eq_none]
        intro ψ hψ
        simp [hno ψ hψ]
      cases hs : sel φ with
      | true => simp [hd]
      | false =>
        simp [hd, hnone, List.filter_cons, hs]
    · simp only [hd, decide_false, Bool.false_and]
      cases hs : sel φ with
      | true => simpa [List.filter_cons, hs] using ih
      | false => simpa [List.filter_cons, hs, hd] using ih

end Verif.IfConv.Spec
