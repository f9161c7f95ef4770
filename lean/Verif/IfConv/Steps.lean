import Verif.IfConv.Runs

/-!
# Lemmas: steps of the function and of what it is turned into (C70)
-/

set_option linter.unusedSimpArgs false
set_option linter.unusedVariables false
set_option linter.unusedSectionVars false

namespace Verif.IfConv
open Spec

variable {V M : Type} {S : Sem V M} {fn : Fn} {A : Info}

theorem converted_some {b : Lab} {φ : Phi} {s : Inst} (h : converted fn A b φ = some s) :
    ∃ c k t f v0 i0 v1 i1, checkBlock fn A b = some (c, k, t, f) ∧ φ.args = [(v0, i0), (v1, i1)] ∧
      defOk A b v0 = true ∧ defOk A b v1 = true ∧
      s = (if (t = b ∧ i0 = c) ∨ A.dom t i0 = true then .select φ.id k v0 v1 else .select φ.id k v1 v0) := by
  unfold converted at h
  split at h
  · rename_i c k t f hc
    unfold convertPhi at h
    split at h
    · rename_i v0 i0 v1 i1 ha
      split at h
      · cases h
      split at h
      · cases h
      refine ⟨c, k, t, f, v0, i0, v1, i1, hc, ha, ?_⟩
      by_cases hA : (t = b ∧ i0 = c) ∨ A.dom t i0 = true
      · simp only [if_pos hA] at h ⊢
        split at h
        · cases h
        split at h
        · cases h
        split at h
        · cases h
        rename_i h3 h4 h5
        simp only [Bool.not_eq_true', Bool.not_eq_false] at h4 h5
        exact ⟨h4, h5, (Option.some.inj h).symm⟩
      · simp only [if_neg hA] at h ⊢
        split at h
        · cases h
        split at h
        · cases h
        split at h
        · cases h
        rename_i h3 h4 h5
        simp only [Bool.not_eq_true', Bool.not_eq_false] at h4 h5
        exact ⟨h5, h4, (Option.some.inj h).symm⟩
    · cases h
  · cases h

/-- A value of a phi that passes the check has a value on arrival, and is not defined in the block. -/
theorem arg_ready (hv : Valid S fn) (hr : Right fn A) {c t f b p0 p1 : Lab} (g : Good fn c t f b p0 p1)
    {l} {s : Config V M} (h : Reach S fn l s) (hs : b ∈ fn.succs s.block) {d : Id} {i : Lab}
    (hi : i = p0 ∨ i = p1) (ha : Avail S fn d i) (hd : defOk A b d = true) :
    s.env d ≠ none ∧ d ∉ defs (fn.block b) := by
  obtain ⟨hp, l', rfl⟩ := h.path
  rcases ha with ⟨h1, h2⟩ | ⟨b', h1, h2⟩
  · exact ⟨h.defined hv d (.inl h1), h2 b⟩
  · have hb := hr.defBlock d b' h1
    have hne : b' ≠ b := by rintro rfl; exact g.nbp hi h2
    refine ⟨?_, ?_⟩
    · apply h.defined hv d
      right
      unfold defOk at hd
      rw [hb] at hd
      have hdom := (hr.dom b' b g.reachb).1 hd
      have := hdom _ (hp.next hs)
      exact ⟨b', by simpa [hne] using this, h1⟩
    · intro hd'
      have := hr.defBlock d b hd'
      rw [hb] at this
      exact hne (Option.some.inj this)

/-- The select has the value of the phi. -/
theorem select_val (hv : Valid S fn) (hr : Right fn A) (hred : Reducible fn) (ha : SidesApart fn)
    {b c k t f : Lab} (hc : checkBlock fn A b = some (c, k, t, f)) {l} {s : Config V M}
    (h : Reach S fn l s) (hgo : Goes S s.env s.mem (fn.block s.block).term b) :
    ∃ vk, s.env k = some vk ∧ k ∉ defs (fn.block b) ∧
      ∀ φ ∈ (fn.block b).phis, ∀ i, converted fn A b φ = some i →
        ∃ x y vx vy, i = .select φ.id k x y ∧ x ∉ defs (fn.block b) ∧ y ∉ defs (fn.block b) ∧
          s.env x = some vx ∧ s.env y = some vy ∧
          phiVal s.env s.block φ = some (if S.truth vk then vx else vy) := by
  obtain ⟨hterm, p0, p1, hpreds, g⟩ := good hv hr hred ha hc
  obtain ⟨vk, hk, htk⟩ := arrive hv hr hterm g h hgo
  have hs : b ∈ fn.succs s.block := hgo.succ
  have hkb : k ∉ defs (fn.block b) := by
    intro hd
    rcases hv.cond_avail c k t f hterm with ⟨_, h'⟩ | ⟨b', h1, h2⟩
    · exact h' b hd
    · have e1 := hr.defBlock k b hd
      have e2 := hr.defBlock k b' h1
      rw [e1] at e2
      cases Option.some.inj e2
      exact g.nb0 (h2.trans g.d0)
  refine ⟨vk, hk, hkb, ?_⟩
  intro φ hφ i hi
  obtain ⟨c', k', t', f', v0, i0, v1, i1, hc', hargs, ok0, ok1, rfl⟩ := converted_some hi
  rw [hc] at hc'
  simp only [Option.some.injEq, Prod.mk.injEq] at hc'
  obtain ⟨rfl, rfl, rfl, rfl⟩ := hc'
  have g' : Good fn c t f b i0 i1 := by
    have hperm := hv.phi_preds b φ hφ
    rw [hargs] at hperm
    simp only [List.map_cons, List.map_nil] at hperm
    have m0 : i0 ∈ [p0, p1] := hpreds ▸ (mem_preds hv).2 ((hperm.2 i0).1 (by simp))
    have m1 : i1 ∈ [p0, p1] := hpreds ▸ (mem_preds hv).2 ((hperm.2 i1).1 (by simp))
    have hne : i0 ≠ i1 := by simpa using hperm.1
    simp only [List.mem_cons, List.not_mem_nil, or_false] at m0 m1
    rcases m0 with rfl | rfl <;> rcases m1 with rfl | rfl
    · exact absurd rfl hne
    · exact g
    · exact g.swap
    · exact absurd rfl hne
  obtain ⟨e0, n0⟩ := arg_ready hv hr g' h hs (.inl rfl) (hv.phi_avail b φ hφ (v0, i0) (by simp [hargs])) ok0
  obtain ⟨e1, n1⟩ := arg_ready hv hr g' h hs (.inr rfl) (hv.phi_avail b φ hφ (v1, i1) (by simp [hargs])) ok1
  obtain ⟨x0, e0⟩ := Option.ne_none_iff_exists'.1 e0
  obtain ⟨x1, e1⟩ := Option.ne_none_iff_exists'.1 e1
  have hpi := (g'.preds _).1 hs
  have hne := g'.ne
  have val0 : s.block = i0 → phiVal s.env s.block φ = some x0 := by
    intro e; simp [phiVal, hargs, e, List.find?_cons, e0]
  have val1 : s.block = i1 → phiVal s.env s.block φ = some x1 := by
    intro e; simp [phiVal, hargs, e, List.find?_cons, hne, e1]
  have pk := g'.pick hpi
  rw [← hr.dom t i0 g'.r0] at pk
  by_cases hA : (t = b ∧ i0 = c) ∨ A.dom t i0 = true
  · rw [if_pos hA]
    refine ⟨v0, v1, x0, x1, rfl, n0, n1, e0, e1, ?_⟩
    cases hb : S.truth vk with
    | true =>
      rw [hb] at htk
      rw [val0 ((pk.1 htk).1 hA)]; rfl
    | false =>
      rw [hb] at htk
      rw [val1 ((pk.2 htk).1 hA)]; rfl
  · rw [if_neg hA]
    refine ⟨v1, v0, x1, x0, rfl, n1, n0, e1, e0, ?_⟩
    cases hb : S.truth vk with
    | true =>
      rw [hb] at htk
      rw [val1 (hpi.resolve_left fun e => hA ((pk.1 htk).2 e))]; rfl
    | false =>
      rw [hb] at htk
      rw [val0 (hpi.resolve_right fun e => hA ((pk.2 htk).2 e))]; rfl

theorem convertBlock_none {b : Lab} (h : checkBlock fn A b = none) :
    convertBlock fn A b = fn.block b := by
  have hn : ∀ φ, converted fn A b φ = none := fun φ => by simp [converted, h]
  have e1 : (fn.block b).phis.filter (fun φ => (converted fn A b φ).isNone) = (fn.block b).phis := by
    simp [hn]
  have e2 : (fn.block b).phis.filterMap (converted fn A b) = [] := by
    rw [List.filterMap_eq_nil_iff]; intro φ _; exact hn φ
  unfold convertBlock
  rw [e1, e2, List.nil_append]

/-- Arriving in a block does the same before and after. -/
theorem arrive_same (hv : Valid S fn) (hr : Right fn A) (hred : Reducible fn) (ha : SidesApart fn)
    {b : Lab} {l} {s : Config V M} (h : Reach S fn l s)
    (hgo : Goes S s.env s.mem (fn.block s.block).term b) (e' : Env V) (m' : M) :
    ((∀ φ ∈ (convertBlock fn A b).phis, phiVal s.env s.block φ ≠ none) ∧
      Exec S (convertBlock fn A b).body (phiEnv s.env s.block (convertBlock fn A b).phis) s.mem e' m') ↔
    ((∀ φ ∈ (fn.block b).phis, phiVal s.env s.block φ ≠ none) ∧
      Exec S (fn.block b).body (phiEnv s.env s.block (fn.block b).phis) s.mem e' m') := by
  cases hc : checkBlock fn A b with
  | none => rw [convertBlock_none hc]
  | some q =>
    obtain ⟨c, k, t, f⟩ := q
    obtain ⟨vk, hk, hkb, hsel⟩ := select_val hv hr hred ha hc h hgo
    have hids : ∀ d, d ∉ defs (fn.block b) → d ∉ (fn.block b).phis.map Phi.id :=
      fun d hd hm => hd (by simp only [defs, List.mem_append]; exact .inl hm)
    have hsub : ∀ d, d ∉ defs (fn.block b) →
        d ∉ ((fn.block b).phis.filter fun φ => (converted fn A b φ).isNone).map Phi.id := by
      intro d hd hm
      obtain ⟨φ, hφ, e⟩ := List.mem_map.1 hm
      exact hids d hd (List.mem_map.2 ⟨φ, (List.mem_filter.1 hφ).1, e⟩)
    have hvals : (∀ φ ∈ (convertBlock fn A b).phis, phiVal s.env s.block φ ≠ none) ↔
        (∀ φ ∈ (fn.block b).phis, phiVal s.env s.block φ ≠ none) := by
      constructor
      · intro h' φ hφ
        cases hi : converted fn A b φ with
        | none => exact h' φ (List.mem_filter.2 ⟨hφ, by simp [hi]⟩)
        | some i =>
          obtain ⟨x, y, vx, vy, _, _, _, _, _, e⟩ := hsel φ hφ i hi
          rw [e]; simp
      · intro h' φ hφ
        exact h' φ (List.mem_filter.1 hφ).1
    rw [hvals]
    refine and_congr_right fun _ => ?_
    have hx := exec_selects (S := S) (g := converted fn A b) (val := phiVal s.env s.block)
      (body := (fn.block b).body) (m := s.mem) (e' := e') (m' := m') (k := k) (vk := vk)
      ((fn.block b).phis.map Phi.id) (hids k hkb) (fn.block b).phis
      (phiEnv s.env s.block ((fn.block b).phis.filter fun φ => (converted fn A b φ).isNone))
      (by rw [phiEnv_same k (hsub k hkb)]; exact hk) (hv.phi_nodup b)
      (fun φ hφ => List.mem_map.2 ⟨φ, hφ, rfl⟩) (by
        intro φ hφ i hi
        obtain ⟨x, y, vx, vy, e, nx, ny, ex, ey, ev⟩ := hsel φ hφ i hi
        exact ⟨x, y, vx, vy, e, hids x nx, hids y ny, by rw [phiEnv_same x (hsub x nx)]; exact ex,
          by rw [phiEnv_same y (hsub y ny)]; exact ey, ev⟩)
    have hu := upd_phiEnv s.env s.block (fun φ => (converted fn A b φ).isSome) (fn.block b).phis (hv.phi_nodup b)
    simp only [Option.not_isSome] at hu
    rw [hu] at hx
    exact hx

theorem step_same (shader : Bool) (hv : Valid S fn) (hr : Right fn A) (hred : Reducible fn)
    (ha : SidesApart fn) {l} {s s' : Config V M} (h : Reach S fn l s) :
    Step S (convert shader fn A) s s' ↔ Step S fn s s' := by
  cases shader with
  | false => exact Iff.rfl
  | true =>
    have hterm : ∀ b, ((convert true fn A).block b).term = (fn.block b).term := fun b => rfl
    have hblk : ∀ b, (convert true fn A).block b = convertBlock fn A b := fun b => rfl
    constructor
    · intro hs
      cases hs with
      | @mk b e m b' e' m' hg hp hx =>
        have := (arrive_same hv hr hred ha h hg e' m').1 ⟨hp, hx⟩
        exact .mk hg this.1 this.2
    · intro hs
      cases hs with
      | @mk b e m b' e' m' hg hp hx =>
        have := (arrive_same hv hr hred ha h hg e' m').2 ⟨hp, hx⟩
        exact .mk hg this.1 this.2

theorem begins_same (shader : Bool) (hv : Valid S fn) {c : Config V M} :
    Begins S (convert shader fn A) c ↔ Begins S fn c := by
  cases shader with
  | false => exact Iff.rfl
  | true =>
    have hp : fn.preds fn.entry = [] := by
      rw [List.eq_nil_iff_forall_not_mem]
      intro p hp
      exact hv.entry_preds p ((mem_preds hv).1 hp)
    have hc : checkBlock fn A fn.entry = none := by unfold checkBlock; rw [hp]
    unfold Begins
    show c.block = fn.entry ∧ Exec S (convertBlock fn A fn.entry).body S.start S.mem c.env c.mem ↔ _
    rw [convertBlock_none hc]

end Verif.IfConv
