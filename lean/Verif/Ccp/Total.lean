import Verif.Ccp.Exec
set_option linter.unusedSimpArgs false
set_option linter.unusedVariables false
set_option linter.unusedSectionVars false
/-!
# The pass comes to an end
-/
namespace Verif.Ccp
open Propagator Propagator.Spec Ccp.Spec
variable {I B Mem : Type} [DecidableEq I] [DecidableEq B] {f : Func I B}

theorem visit_chooses (va : Valid f) : ChoosesSuccessors f.toProg f.visit := by
  intro v e i st d h
  cases hr : (f.kind i).result with
  | true =>
    rcases visit_result v e i hr with ⟨h1, -⟩ | ⟨k, h1, -⟩ | h1 <;> rw [h1] at h <;> cases h
  | false =>
    unfold Func.visit at h
    cases hk : f.kind i with
    | phi => rw [hk] at hr; cases hr
    | copy => rw [hk] at hr; cases hr
    | foldable => rw [hk] at hr; cases hr
    | assign => rw [hk] at hr; cases hr
    | effect => rw [hk] at h; cases h
    | br t =>
      rw [hk] at h
      cases h
      obtain ⟨h1, -, h2⟩ := va.br i _ hk
      exact ⟨h1, h2⟩
    | cond c t e' =>
      rw [hk] at h
      obtain ⟨-, h1, -, -, h2⟩ := va.cond i c t e' hk
      refine ⟨h1, fun b hb => ?_⟩
      obtain ⟨h3, h4⟩ := h2 b hb
      dsimp only at h
      split at h
      · split at h
        · cases h; exact h4
        · next x _ => cases h; cases x <;> assumption
        · cases h
      · cases h
    | switch sel dflt cases =>
      rw [hk] at h
      obtain ⟨-, h1, h2⟩ := va.switch i sel dflt cases hk
      refine ⟨h1, fun b hb => ?_⟩
      dsimp only at h
      split at h
      · split at h
        · cases h; exact (h2 _ (findCase_mem _ _ _)).2 b hb
        · cases h; exact (h2 _ (findCase_mem _ _ _)).2 b hb
        · cases h
      · cases h

theorem init_const {d k : I} (h : f.init d = some (.const k)) : k = d := by
  unfold Func.init at h
  split at h
  · split at h
    · cases h; rfl
    · cases h
  · cases h

theorem replay_typed {type : I → Nat} {boolType : Nat} {intType : Nat → Prop} (ty : Typed f type boolType intType)
    {t : List (Call I B)} {v : Table I} (h : Replay f.toProg f.visit f.init t v) :
    ∀ d k, v d = some (.const k) → type k = type d := by
  induction h with
  | nil => intro d k h; rw [init_const h]
  | @cons t v c v' _ hv _ _ _ _ ih =>
    intro d k hd
    cases hr : (f.kind c.inst).result with
    | false =>
      have h1 := (visit_other v c.seen c.inst hr).1
      rw [hv] at h1
      dsimp only at h1
      subst h1
      exact ih d k hd
    | true =>
      by_cases hdc : d = c.inst
      · rcases visit_result v c.seen c.inst hr with ⟨h, -⟩ | ⟨k', h, hs⟩ | h
        · rw [hv] at h
          simp only [Prod.mk.injEq] at h
          obtain ⟨rfl, -⟩ := h
          exact ih d k hd
        · rw [hv] at h
          simp only [Prod.mk.injEq] at h
          obtain ⟨rfl, -⟩ := h
          rw [hdc, set_self] at hd
          cases hd
          rw [hdc]
          unfold Source at hs
          cases hk : f.kind c.inst with
          | phi =>
            rw [hk] at hs
            obtain ⟨b, -, ⟨a, ha, -, hva⟩, -⟩ := hs
            exact (ih _ _ hva).trans (ty.phi _ a.1 a.2 hk ha)
          | copy src => rw [hk] at hs; exact (ih _ _ hs.1).trans (ty.copy _ _ hk)
          | foldable => rw [hk] at hs; exact ty.fold _ _ _ hs.1
          | br => rw [hk] at hs; exact hs.elim
          | cond => rw [hk] at hs; exact hs.elim
          | switch => rw [hk] at hs; exact hs.elim
          | assign => rw [hk] at hs; exact hs.elim
          | effect => rw [hk] at hs; exact hs.elim
        · rw [hv] at h
          simp only [Prod.mk.injEq] at h
          obtain ⟨rfl, -⟩ := h
          rw [hdc, set_self] at hd
          cases hd
      · have : v' d = v d := by
          rcases visit_result v c.seen c.inst hr with ⟨h, -⟩ | ⟨k', h, -⟩ | h <;> rw [hv] at h <;>
            simp only [Prod.mk.injEq] at h <;> obtain ⟨rfl, -⟩ := h
          · rfl
          · exact set_other v _ hdc
          · exact set_other v _ hdc
        rw [this] at hd
        exact ih d k hd

theorem not_bad {type : I → Nat} {boolType : Nat} {intType : Nat → Prop} (va : Valid f)
    (fc : ∀ i m k, f.fold i m = some k → f.const k ≠ none) (fg : FoldGrows f)
    (ty : Typed f type boolType intType) : ¬ Bad f.toProg f.visit f.init := by
  rintro ⟨s, i, tr, hd, h⟩
  have g := replay_good va fc tr.replay
  have ht := replay_typed ty tr.replay
  rcases h with h | ⟨hb, st, o, h1, h2, h3⟩
  · cases hr : (f.kind i).result with
    | true =>
      rcases visit_result s.val s.edges i hr with ⟨h1, -⟩ | ⟨k, h1, -⟩ | h1 <;> rw [h1] at h <;> cases h
    | false =>
      unfold Func.visit at h
      cases hk : f.kind i with
      | phi => rw [hk] at hr; cases hr
      | copy => rw [hk] at hr; cases hr
      | foldable => rw [hk] at hr; cases hr
      | assign => rw [hk] at hr; cases hr
      | effect => rw [hk] at h; cases h
      | br t => rw [hk] at h; cases h
      | cond c t e =>
        rw [hk] at h
        dsimp only at h
        cases hv : s.val c with
        | none => rw [hv] at h; cases h
        | some x =>
          cases x with
          | varying => rw [hv] at h; cases h
          | const k =>
            rw [hv] at h
            dsimp only at h
            rcases ty.bool k (g.consts c k hv) ((ht c k hv).trans (ty.cond i c t e hk)) with hc | ⟨b, hc⟩ <;>
              rw [hc] at h <;> cases h
      | switch c t e =>
        rw [hk] at h
        dsimp only at h
        cases hv : s.val c with
        | none => rw [hv] at h; cases h
        | some x =>
          cases x with
          | varying => rw [hv] at h; cases h
          | const k =>
            rw [hv] at h
            dsimp only at h
            rcases ty.int k (g.consts c k hv) (by rw [ht c k hv]; exact ty.switch i c t e hk) with hc | ⟨b, hc⟩ <;>
              rw [hc] at h <;> cases h
  · have ho : o = .interesting := by
      cases o with
      | notInteresting => simp [Status.rank] at h3
      | interesting => rfl
      | varying => exact absurd (tr.dns i (by rw [tr.status, h2])) hd
    subst ho
    have hst : st = .notInteresting := by
      cases st with
      | notInteresting => rfl
      | interesting => simp [Status.rank] at h3
      | varying => simp [Status.rank] at h3
    subst hst
    cases hr : (f.kind i).result with
    | false => exact (visit_other s.val s.edges i hr).2 h1
    | true =>
      obtain ⟨k, hk⟩ := g.found i hb hr h2
      rcases visit_result s.val s.edges i hr with ⟨-, hu⟩ | ⟨k, h, -⟩ | h
      · unfold Unknown at hu
        cases hki : f.kind i with
        | phi =>
          rw [hki] at hu
          cases hbi : f.block i with
          | none => exact hb hbi
          | some b =>
            obtain ⟨a, ha, ⟨c, hc, hx⟩, hva⟩ := g.phi i k b hbi hki hk
            have := hu b hbi a ha (tr.seen c hc _ hx)
            rw [this] at hva; simp at hva
        | copy src => rw [hki] at hu; exact g.copy i src k hb hki hk hu
        | foldable =>
          rw [hki] at hu
          obtain ⟨h4, -, h5⟩ := hu
          obtain ⟨v0, le, h6⟩ := g.fold i k hb hki hk
          refine fg i _ _ (fun d hd => ?_) h6 h4
          unfold mapFunc
          rcases le d with h7 | h7 | h7
          · rw [h7]
            cases hv : s.val d with
            | none => exact .inl rfl
            | some x =>
              cases x with
              | varying => exact absurd hv (h5 d hd)
              | const k' =>
                dsimp only
                by_cases hc : f.const d = none
                · exact .inr ⟨rfl, hc, g.consts d k' hv⟩
                · rw [g.out d (va.consts d hc)] at hv
                  exact .inl (init_const hv)
          · rw [h7]; exact .inl rfl
          · exact absurd h7 (h5 d hd)
        | br => rw [hki] at hu; exact hu.elim
        | cond => rw [hki] at hu; exact hu.elim
        | switch => rw [hki] at hu; exact hu.elim
        | assign => rw [hki] at hu; exact hu.elim
        | effect => rw [hki] at hu; exact hu.elim
      · rw [h] at h1; cases h1
      · rw [h] at h1; cases h1

theorem run_final (va : Valid f) {fuel : Nat} {r s} (h : f.run fuel = .done r s) : Final f s :=
  ⟨run_settles va.prog (visit_chooses va) _ _ h, (run_track fuel).1 r s h⟩

end Verif.Ccp
