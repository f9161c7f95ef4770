import Verif.Cfa.Spec
/-! Index-level theory of the Cooper–Harvey–Kennedy iteration: nodes are the
postorder indices `0 .. N-1`, the root is `N-1`, `D i = N` means undefined. -/
set_option linter.unusedSimpArgs false
set_option linter.unusedVariables false
namespace Verif.Cfa.Idx

variable {N : Nat}

structure WF (N : Nat) (D : Nat → Nat) : Prop where
  pos : 0 < N
  root : D (N - 1) = N - 1
  up : ∀ i, i < N - 1 → D i ≠ N → i < D i ∧ D i < N ∧ D (D i) ≠ N

/-- `y` is on the dominator chain of `x`. -/
inductive Anc (N : Nat) (D : Nat → Nat) : Nat → Nat → Prop
  | refl (x) : Anc N D x x
  | step {x y} : x < N - 1 → D x ≠ N → Anc N D (D x) y → Anc N D x y

theorem Anc.trans {D x y z} (h1 : Anc N D x y) (h2 : Anc N D y z) : Anc N D x z := by
  induction h1 with
  | refl => exact h2
  | step a b _ ih => exact .step a b (ih h2)

theorem Anc.le {D x y} (w : WF N D) (h : Anc N D x y) : x ≤ y := by
  induction h with
  | refl => omega
  | step a b _ ih => have := w.up _ a b; omega

theorem Anc.lt_N {D x y} (w : WF N D) (h : Anc N D x y) (hx : x < N) : y < N := by
  induction h with
  | refl => exact hx
  | step a b _ ih => exact ih (w.up _ a b).2.1

theorem Anc.defd {D x y} (w : WF N D) (h : Anc N D x y) (hx : D x ≠ N) : D y ≠ N := by
  induction h with
  | refl => exact hx
  | step a b _ ih => exact ih (w.up _ a b).2.2

theorem Anc.linear {D x y z} (w : WF N D) (h1 : Anc N D x y) (h2 : Anc N D x z) (hyz : y ≤ z) :
    Anc N D y z := by
  induction h1 with
  | refl => exact h2
  | step a b h ih =>
    cases h2 with
    | refl =>
      have := h.le w
      have := w.up _ a b
      omega
    | step _ _ h2 => exact ih h2 hyz

theorem Anc.to_root {D} (w : WF N D) : ∀ k x, N - x = k → x < N → D x ≠ N → Anc N D x (N - 1) := by
  intro k
  induction k using Nat.strongRecOn with
  | ind k ih =>
    intro x hk hx hd
    by_cases h : x < N - 1
    · have := w.up x h hd
      exact .step h hd (ih (N - D x) (by omega) (D x) rfl this.2.1 this.2.2)
    · have : x = N - 1 := by omega
      subst this; exact .refl _

/-! ### climb and intersect -/

def climb (D : Nat → Nat) : Nat → Nat → Nat → Option Nat
  | 0, _, _ => none
  | k + 1, f, g => if f < g then climb D k (D f) g else some f

def inter (D : Nat → Nat) : Nat → Nat → Nat → Option Nat
  | 0, _, _ => none
  | k + 1, f1, f2 =>
    if f1 = f2 then some f1
    else match climb D k f1 f2 with
      | none => none
      | some f1 => match climb D k f2 f1 with
        | none => none
        | some f2 => inter D k f1 f2

theorem climb_spec {D} (w : WF N D) : ∀ k f g, f < N → g < N → D f ≠ N → N + 1 - f ≤ k →
    ∃ f', climb D k f g = some f' ∧ Anc N D f f' ∧ g ≤ f' ∧ f ≤ f' ∧ (f < g → f < f') ∧
      (∀ e, g ≤ e → Anc N D f e → Anc N D f' e) := by
  intro k
  induction k with
  | zero => intro f g hf; omega
  | succ k ih =>
    intro f g hf hg hd hk
    unfold climb
    by_cases hlt : f < g
    · rw [if_pos hlt]
      have hf1 : f < N - 1 := by omega
      have hu := w.up f hf1 hd
      obtain ⟨f', h1, h2, h3, h4, h5, h6⟩ := ih (D f) g hu.2.1 hg hu.2.2 (by omega)
      refine ⟨f', h1, .step hf1 hd h2, h3, by omega, by omega, ?_⟩
      intro e he hae
      refine h6 e he ?_
      cases hae with
      | refl => omega
      | step _ _ h => exact h
    · rw [if_neg hlt]
      exact ⟨f, rfl, .refl _, by omega, by omega, by omega, fun e _ h => h⟩

theorem inter_spec {D} (w : WF N D) : ∀ k f g, f < N → g < N → D f ≠ N → D g ≠ N →
    (N + 2) + (2 * N - f - g) ≤ k →
    ∃ z, inter D k f g = some z ∧ Anc N D f z ∧ Anc N D g z ∧
      (∀ e, Anc N D f e → Anc N D g e → Anc N D z e) := by
  intro k
  induction k with
  | zero => intro f g hf; omega
  | succ k ih =>
    intro f g hf hg hdf hdg hk
    unfold inter
    by_cases he : f = g
    · subst he
      rw [if_pos rfl]
      exact ⟨f, rfl, .refl _, .refl _, fun e h _ => h⟩
    · rw [if_neg he]
      obtain ⟨f', a1, a2, a3, a4, a5, a6⟩ := climb_spec w k f g hf hg hdf (by omega)
      have hf' : f' < N := a2.lt_N w hf
      have hdf' : D f' ≠ N := a2.defd w hdf
      obtain ⟨g', b1, b2, b3, b4, b5, b6⟩ := climb_spec w k g f' hg hf' hdg (by omega)
      have hg' : g' < N := b2.lt_N w hg
      have hdg' : D g' ≠ N := b2.defd w hdg
      simp only [a1, b1]
      obtain ⟨z, c1, c2, c3, c4⟩ := ih f' g' hf' hg' hdf' hdg' (by omega)
      refine ⟨z, c1, a2.trans c2, b2.trans c3, ?_⟩
      intro e h1 h2
      have he1 := h1.le w
      have he2 := h2.le w
      have hfe : Anc N D f' e := a6 e he2 h1
      exact c4 e hfe (b6 e (hfe.le w) h2)

/-! ### the sweep invariant -/

/-- Paths from the root, over indices. -/
inductive IPath (N : Nat) (preds : Nat → List Nat) : Nat → List Nat → Prop
  | root : IPath N preds (N - 1) [N - 1]
  | snoc {x y p} : IPath N preds x p → x ∈ preds y → y < N → IPath N preds y (p ++ [y])

def IDom (N : Nat) (preds : Nat → List Nat) (d x : Nat) : Prop := ∀ p, IPath N preds x p → d ∈ p

structure Graph (N : Nat) (preds : Nat → List Nat) : Prop where
  bnd : ∀ i, ∀ p ∈ preds i, p < N
  fwd : ∀ i, i < N - 1 → ∃ f ∈ preds i, i < f

def upd (D : Nat → Nat) (c z : Nat) : Nat → Nat := fun i => if i = c then z else D i

structure Inv (N : Nat) (preds : Nat → List Nat) (D : Nat → Nat) (u : Nat) : Prop where
  wf : WF N D
  defd : ∀ i, u ≤ i → i < N → D i ≠ N
  upw : ∀ i j, i < j → j < N → D i ≠ N → D j ≠ N
  sound : ∀ i, i < N - 1 → D i ≠ N → ∀ d, IDom N preds d i → d = i ∨ IDom N preds d (D i)
  near : ∀ c, c < N - 1 → D c ≠ N → ∀ e, (∀ p ∈ preds c, D p ≠ N → Anc N D p e) → Anc N D (D c) e
  bel : ∀ c, c < N - 1 → D c ≠ N → (u ≤ c ∨ D c < u) → ∀ f ∈ preds c, c < f → D f ≠ N →
    Anc N D f (D c)

/-- `z` is the nearest common chain member of the defined predecessors of `c`. -/
structure Near (N : Nat) (preds : Nat → List Nat) (D : Nat → Nat) (c z : Nat) : Prop where
  anc : ∀ p ∈ preds c, D p ≠ N → Anc N D p z
  least : ∀ e, (∀ p ∈ preds c, D p ≠ N → Anc N D p e) → Anc N D z e

theorem upd_self (D : Nat → Nat) (c) : upd D c (D c) = D := by
  funext i; unfold upd; split <;> simp_all

theorem anc_above {D c z x y} (w : WF N D) (hcx : c < x) (h : Anc N D x y) :
    Anc N (upd D c z) x y := by
  induction h with
  | refl => exact .refl _
  | step a b h ih =>
    rename_i x y
    have hu := w.up x a b
    have e : upd D c z x = D x := by simp [upd]; omega
    exact .step a (by rw [e]; exact b) (by rw [e]; exact ih (by omega))

theorem anc_above' {D c z x y} (w : WF N D) (hcx : c < x) (h : Anc N (upd D c z) x y) :
    Anc N D x y := by
  induction h with
  | refl => exact .refl _
  | step a b h ih =>
    rename_i x y
    have e : upd D c z x = D x := by simp [upd]; omega
    rw [e] at b ih
    have hu := w.up x a b
    exact .step a b (ih (by omega))

theorem anc_low {D c z x y} (w : WF N D) (hyc : y ≤ c) (h : Anc N D x y) :
    Anc N (upd D c z) x y := by
  induction h with
  | refl => exact .refl _
  | step a b h ih =>
    rename_i x y
    have hl := h.le w
    have hu := w.up x a b
    have e : upd D c z x = D x := by simp [upd]; omega
    exact .step a (by rw [e]; exact b) (by rw [e]; exact ih hyc)

/-- Chains only shrink when a node moves up (or becomes defined). -/
theorem anc_shrink {D c z x y} (w : WF N D) (hc : c < N - 1) (hcz : c < z)
    (hz : D c = N ∨ Anc N D (D c) z) (hx : D x ≠ N) (h : Anc N (upd D c z) x y) :
    Anc N D x y := by
  induction h with
  | refl => exact .refl _
  | step a b h ih =>
    rename_i x y
    by_cases hxc : x = c
    · subst hxc
      have e : upd D x z x = z := by simp [upd]
      rw [e] at ih h
      rcases hz with hz | hz
      · exact absurd hz hx
      · have hzy : Anc N D z y := anc_above' w hcz h
        exact .step a hx (hz.trans hzy)
    · have e : upd D c z x = D x := by simp [upd, hxc]
      rw [e] at b ih
      exact .step a b (ih (w.up x a b).2.2)

theorem idom_step {preds : Nat → List Nat} {d c p : Nat} (hc : c < N) (hp : p ∈ preds c) (h : IDom N preds d c)
    (hne : d ≠ c) : IDom N preds d p := by
  intro q hq
  have := h _ (IPath.snoc hq hp hc)
  simp only [List.mem_append, List.mem_singleton] at this
  exact this.resolve_right hne

theorem dom_climb {preds D d p z} (hs : ∀ i, i < N - 1 → D i ≠ N → ∀ d, IDom N preds d i → d = i ∨ IDom N preds d (D i))
    (h : Anc N D p z) (hd : IDom N preds d p) : IDom N preds d z ∨ Anc N D p d := by
  induction h with
  | refl => exact Or.inl hd
  | step a b h ih =>
    rcases hs _ a b d hd with rfl | h'
    · exact Or.inr (.refl _)
    · rcases ih h' with h | h
      · exact Or.inl h
      · exact Or.inr (.step a b h)

theorem dom_climb' {preds D d p z} (w : WF N D)
    (hs : ∀ i, i < N - 1 → D i ≠ N → ∀ d, IDom N preds d i → d = i ∨ IDom N preds d (D i))
    (h : Anc N D p z) (hd : IDom N preds d p) (hle : z ≤ d) : IDom N preds d z := by
  induction h with
  | refl => exact hd
  | step a b h ih =>
    rcases hs _ a b d hd with rfl | h'
    · have := h.le w
      have := w.up _ a b
      omega
    · exact ih h' hle

theorem inv_step {preds : Nat → List Nat} (g : Graph N preds) {D c z} (hc : c < N - 1) (inv : Inv N preds D (c + 1))
    (hz : Near N preds D c z) :
    Inv N preds (upd D c z) c ∧ (D c = N ∨ Anc N D (D c) z) ∧ c < z ∧ z < N := by
  have w := inv.wf
  have hN := w.pos
  obtain ⟨f, hf, hcf⟩ := g.fwd c hc
  have hfN := g.bnd c f hf
  have hdf : D f ≠ N := inv.defd f (by omega) hfN
  have haf := hz.anc f hf hdf
  have hcz : c < z := by have := haf.le w; omega
  have hzN : z < N := haf.lt_N w hfN
  have hdz : D z ≠ N := haf.defd w hdf
  have hup : D c = N ∨ Anc N D (D c) z := by
    by_cases h : D c = N
    · exact Or.inl h
    · exact Or.inr (inv.near c hc h z hz.anc)
  have hother : ∀ i, i ≠ c → upd D c z i = D i := by intro i hi; simp [upd, hi]
  have hself : upd D c z c = z := by simp [upd]
  have hdefmono : ∀ i, D i ≠ N → upd D c z i ≠ N := by
    intro i hi
    by_cases h : i = c
    · subst h; rw [hself]; omega
    · rw [hother i h]; exact hi
  have w' : WF N (upd D c z) := by
    refine ⟨w.pos, ?_, ?_⟩
    · rw [hother _ (by omega)]; exact w.root
    · intro i hi hd
      by_cases h : i = c
      · subst h
        rw [hself]
        exact ⟨hcz, hzN, by rw [hother z (by omega)]; exact hdz⟩
      · rw [hother i h] at hd ⊢
        have := w.up i hi hd
        exact ⟨this.1, this.2.1, hdefmono _ this.2.2⟩
  have shrink : ∀ {x y}, D x ≠ N → Anc N (upd D c z) x y → Anc N D x y :=
    fun hx h => anc_shrink w hc hcz hup hx h
  refine ⟨⟨w', ?_, ?_, ?_, ?_, ?_⟩, hup, hcz, hzN⟩
  · intro i hi hiN
    by_cases h : i = c
    · subst h; rw [hself]; omega
    · rw [hother i h]; exact inv.defd i (by omega) hiN
  · intro i j hij hjN hd
    by_cases h : i = c
    · subst h; rw [hother j (by omega)]; exact inv.defd j (by omega) hjN
    · rw [hother i h] at hd; exact hdefmono _ (inv.upw i j hij hjN hd)
  · intro i hi hd d hdom
    by_cases h : i = c
    · subst h
      rw [hself]
      by_cases hdi : d = i
      · exact Or.inl hdi
      · right
        have hdomf : IDom N preds d f := idom_step (by omega) hf hdom hdi
        by_cases hzz : IDom N preds d z
        · exact hzz
        · have hall : ∀ p ∈ preds i, D p ≠ N → Anc N D p d := by
            intro p hp hdp
            have hdomp : IDom N preds d p := idom_step (by omega) hp hdom hdi
            rcases dom_climb inv.sound (hz.anc p hp hdp) hdomp with h | h
            · exact absurd h hzz
            · exact h
          exact dom_climb' w inv.sound haf hdomf ((hz.least d hall).le w)
    · rw [hother i h] at hd ⊢
      exact inv.sound i hi hd d hdom
  · intro c' hc' hd e he
    by_cases h : c' = c
    · subst h
      rw [hself]
      refine anc_above w hcz (hz.least e ?_)
      intro p hp hdp
      exact shrink hdp (he p hp (hdefmono p hdp))
    · rw [hother c' h] at hd ⊢
      have hK : Anc N D (D c') e := by
        refine inv.near c' hc' hd e ?_
        intro p hp hdp
        exact shrink hdp (he p hp (hdefmono p hdp))
      by_cases hw : c < D c'
      · exact anc_above w hw hK
      · obtain ⟨f', hf', hcf'⟩ := g.fwd c' hc'
        have hu := w.up c' hc' hd
        have hf'N := g.bnd c' f' hf'
        have hdf' : D f' ≠ N := inv.upw c' f' hcf' hf'N hd
        · have hb := inv.bel c' hc' hd (Or.inr (by omega)) f' hf' hcf' hdf'
          have hb' : Anc N (upd D c z) f' (D c') := anc_low w (by omega) hb
          have he' := he f' hf' (hdefmono f' hdf')
          exact hb'.linear w' he' (hK.le w)
  · intro c' hc' hd hor f' hf' hcf' hdf'
    by_cases h : c' = c
    · subst h
      rw [hself]
      have : D f' ≠ N := by rw [hother f' (by omega)] at hdf'; exact hdf'
      exact anc_above w hcf' (hz.anc f' hf' this)
    · rw [hother c' h] at hd hor ⊢
      by_cases hgt : c < c'
      · have : D f' ≠ N := by rw [hother f' (by omega)] at hdf'; exact hdf'
        have hb := inv.bel c' hc' hd (Or.inl (by omega)) f' hf' hcf' this
        exact anc_above w (by omega) hb
      · have hlt : D c' < c := by omega
        have : D f' ≠ N := inv.upw c' f' hcf' (g.bnd c' f' hf') hd
        · exact anc_low w (by omega) (inv.bel c' hc' hd (Or.inr (by omega)) f' hf' hcf' this)

end Verif.Cfa.Idx
