import Verif.BlockMerge.Join

/-!
# Lemmas: runs of joined blocks (C73)
-/

set_option linter.unusedSimpArgs false
set_option linter.unusedVariables false
set_option linter.unusedSectionVars false

namespace Verif.BlockMerge.Spec
open Verif.IfConv Verif.CodeSink Verif.CodeSink.Spec
open Verif.IfConv.Spec hiding Valid Right

variable {V M : Type} {S : Sem V M} {fn : Fn} {b s : Lab}

/-- Configurations of two functions that differ in the ids `X`. -/
structure Like (S : Sem V M) (X : Id → Prop) (fn fn' : Fn) (c c' : Config V M) : Prop where
  mem : c'.mem = c.mem
  goes : ∀ y, Goes S c'.env c'.mem (fn'.block c'.block).term y ↔ Goes S c.env c.mem (fn.block c.block).term y
  br : ∀ y, (fn'.block c'.block).term = .br y ↔ (fn.block c.block).term = .br y
  env : ∀ x, ¬ X x → c'.env x = c.env x
  reads : (termReads (fn'.block c'.block).term).map c'.env = (termReads (fn.block c.block).term).map c.env

theorem Like.trans {X Y : Id → Prop} {f1 f2 f3 : Fn} {c1 c2 c3 : Config V M} (h : Like S X f1 f2 c1 c2)
    (h' : Like S Y f2 f3 c2 c3) : Like S (fun x => X x ∨ Y x) f1 f3 c1 c3 :=
  ⟨h'.mem.trans h.mem, fun y => (h'.goes y).trans (h.goes y), fun y => (h'.br y).trans (h.br y),
    fun x hx => (h'.env x (fun h => hx (.inr h))).trans (h.env x (fun h => hx (.inl h))), h'.reads.trans h.reads⟩

theorem Like.mono {X Y : Id → Prop} {f1 f2 : Fn} {c1 c2 : Config V M} (h : Like S X f1 f2 c1 c2)
    (hi : ∀ x, X x → Y x) : Like S Y f1 f2 c1 c2 :=
  ⟨h.mem, h.goes, h.br, fun x hx => h.env x (fun h => hx (hi x h)), h.reads⟩

namespace Two

theorem find_ren {p : Lab} (hp : p ≠ b) : ∀ {args : List (Id × Lab)}, (∀ x ∈ args, x.2 ≠ b) →
    (args.map fun x => (x.1, ren s b x.2)).find? (fun x => decide (x.2 = ren s b p)) =
      (args.find? (fun x => decide (x.2 = p))).map fun x => (x.1, ren s b x.2)
  | [], _ => rfl
  | x :: args, h => by
    have hx := h x (by simp)
    have : decide (ren s b x.2 = ren s b p) = decide (x.2 = p) := by
      unfold ren
      by_cases h1 : x.2 = s <;> by_cases h2 : p = s
      · simp [h1, h2]
      · simp [h1, h2, Ne.symm hp, Ne.symm h2]
      · simp [h1, h2, hx]
      · simp [h1, h2]
    simp only [List.map_cons, List.find?_cons, this]
    split
    · rfl
    · exact find_ren hp (fun y hy => h y (List.mem_cons_of_mem _ hy))

theorem phi_val (g : Two S fn b s) {y p : Lab} (hy : y ≠ s) (hp : p ≠ b) {φ} (hφ : φ ∈ (fn.block y).phis)
    (e : Env V) : phiVal e (ren s b p) (renPhi s b φ) = phiVal e p φ := by
  unfold phiVal
  simp only [renPhi]
  rw [find_ren hp]
  · cases φ.args.find? (fun x => decide (x.2 = p)) <;> rfl
  · intro x hx e
    have h1 := ((g.valid.phi_preds y φ hφ).2 x.2).1 (List.mem_map.2 ⟨x, hx, rfl⟩)
    rw [e] at h1
    exact g.not_b hy h1

theorem phi_env (g : Two S fn b s) {y p : Lab} (hy : y ≠ s) (hp : p ≠ b) (e : Env V) :
    phiEnv e (ren s b p) ((join fn b s).block y).phis = phiEnv e p (fn.block y).phis := by
  funext x
  rw [g.phis_x hy]
  unfold phiEnv
  have : ((fn.block y).phis.map (renPhi s b)).find? (fun φ => decide (φ.id = x)) =
      ((fn.block y).phis.find? (fun φ => decide (φ.id = x))).map (renPhi s b) := by
    rw [List.find?_map]; rfl
  rw [this]
  cases hf : (fn.block y).phis.find? (fun φ => decide (φ.id = x)) with
  | none => rfl
  | some φ => exact g.phi_val hy hp (List.mem_of_find?_eq_some hf) e

theorem phi_ok (g : Two S fn b s) {y p : Lab} (hy : y ≠ s) (hp : p ≠ b) (e : Env V) :
    (∀ ψ ∈ ((join fn b s).block y).phis, phiVal e (ren s b p) ψ ≠ Option.none) ↔
    (∀ φ ∈ (fn.block y).phis, phiVal e p φ ≠ Option.none) := by
  rw [g.phis_x hy]
  constructor
  · intro h φ hφ
    rw [← g.phi_val hy hp hφ e]
    exact h _ (List.mem_map.2 ⟨φ, hφ, rfl⟩)
  · intro h ψ hψ
    obtain ⟨φ, hφ, rfl⟩ := List.mem_map.1 hψ
    rw [g.phi_val hy hp hφ e]
    exact h φ hφ

theorem forth (g : Two S fn b s) {l} {c : Config V M} (h : Reach S fn l c) :
    (c.block ≠ b → Reach S (join fn b s) (l.filter (· ≠ s)) ⟨ren s b c.block, c.env, c.mem⟩) ∧
    (c.block = b → ∀ e1 m1, Exec S (fn.block s).body c.env c.mem e1 m1 →
      Reach S (join fn b s) (l.filter (· ≠ s)) ⟨b, e1, m1⟩) := by
  induction h with
  | @start c hb =>
    obtain ⟨y, e, m⟩ := c
    obtain ⟨h1, h2⟩ := hb
    simp only at h1 h2
    have hne := Ne.symm (g.entry g.valid)
    have hf : [fn.entry].filter (· ≠ s) = [fn.entry] := by simp [hne]
    rw [hf]
    constructor
    · intro hyb
      simp only at hyb ⊢
      subst h1
      rw [ren_ne hne]
      refine .start (fn := join fn b s) ⟨rfl, ?_⟩
      show Exec S ((join fn b s).block fn.entry).body _ _ _ _
      rw [g.body_x hne hyb]; exact h2
    · intro hyb e1 m1 hx
      simp only at hyb hx
      subst hyb
      refine .start (fn := join fn y s) ⟨h1, ?_⟩
      show Exec S ((join fn y s).block fn.entry).body _ _ _ _
      rw [← h1, g.body_b]
      exact exec_append.2 ⟨_, _, by rw [h1]; exact h2, hx⟩
  | @step l c c' hr hs ih =>
    cases hs with
    | @mk p e m y e' m' hg hφ hx =>
      simp only at ih ⊢
      by_cases hp : p = b
      · subst hp
        have hy : y = s := by
          have := hg.succ
          rw [g.term] at this
          simpa [Term.succs] using this
        subst hy
        constructor
        · intro _
          rw [g.none] at hx
          have he : phiEnv e p [] = e := rfl
          rw [he] at hx
          rw [ren_self, List.filter_cons_of_neg (by simp)]
          exact ih.2 rfl e' m' hx
        · intro e0; exact absurd e0.symm g.neq
      · have hy : y ≠ s := by rintro rfl; exact g.no_s hp hg.succ
        have hr' := ih.1 hp
        rw [List.filter_cons_of_pos (by simpa using hy)]
        have hg' : Goes S e m ((join fn b s).block (ren s b p)).term y := by rw [g.term_ren hp]; exact hg
        constructor
        · intro hyb
          rw [ren_ne hy]
          refine .step (c' := ⟨y, e', m'⟩) hr' (.mk hg' ((g.phi_ok hy hp e).2 hφ) ?_)
          rw [g.phi_env hy hp, g.body_x hy hyb]; exact hx
        · intro hyb e1 m1 hx1
          subst hyb
          refine .step (c' := ⟨y, e1, m1⟩) hr' (.mk hg' ((g.phi_ok hy hp e).2 hφ) ?_)
          rw [g.phi_env hy hp, g.body_b]
          exact exec_append.2 ⟨_, _, hx, hx1⟩

theorem back (g : Two S fn b s) {l'} {c' : Config V M} (h : Reach S (join fn b s) l' c') :
    ∃ l, Reach S fn l ⟨tip b s c'.block, c'.env, c'.mem⟩ ∧ l.filter (· ≠ s) = l' ∧ c'.block ≠ s := by
  /- one more block when it is the joined one -/
  have ext : ∀ {y : Lab} {l0 : List Lab} {e0 : Env V} {e m m0}, y ≠ s →
      (∀ e1 m1, Exec S (fn.block y).body e0 m0 e1 m1 → Reach S fn (y :: l0) ⟨y, e1, m1⟩) →
      Exec S ((join fn b s).block y).body e0 m0 e m →
      ∃ l, Reach S fn l ⟨tip b s y, e, m⟩ ∧ l.filter (· ≠ s) = y :: l0.filter (· ≠ s) := by
    intro y l0 e0 e m m0 hy hreach hx
    by_cases hyb : y = b
    · rw [hyb] at hx hreach hy ⊢
      rw [g.body_b] at hx
      obtain ⟨e1, m1, k1, k2⟩ := exec_append.1 hx
      simp only [tip, if_true]
      refine ⟨s :: b :: l0, .step (c' := ⟨s, e, m⟩) (hreach e1 m1 k1) (.mk ?_ ?_ ?_), ?_⟩
      · rw [g.term]; exact .br
      · rw [g.none]; simp
      · rw [g.none]; exact k2
      · rw [List.filter_cons_of_neg (by simp), List.filter_cons_of_pos (by simpa using hy)]
    · simp only [tip, if_neg hyb]
      rw [g.body_x hy hyb] at hx
      exact ⟨y :: l0, hreach e m hx, by rw [List.filter_cons_of_pos (by simpa using hy)]⟩
  induction h with
  | @start c hb =>
    obtain ⟨y, e, m⟩ := c
    obtain ⟨h1, h2⟩ := hb
    simp only at h1 h2 ⊢
    have hne := Ne.symm (g.entry g.valid)
    replace h1 : y = fn.entry := h1
    subst h1
    obtain ⟨l, k1, k2⟩ := ext (l0 := []) hne (fun e1 m1 hx => .start ⟨rfl, hx⟩) h2
    exact ⟨l, k1, k2, hne⟩
  | @step l' c' c1 hr' hs ih =>
    obtain ⟨l, hr, hl, hs'⟩ := ih
    cases hs with
    | @mk p e m y e' m' hg hφ hx =>
      simp only at hr hs' ⊢
      have htip : tip b s p ≠ b := by
        unfold tip
        split
        · exact Ne.symm g.neq
        · assumption
      have hren : ren s b (tip b s p) = p := by
        unfold tip
        split
        · rename_i h; rw [h, ren_self]
        · exact ren_ne hs'
      have hg' : Goes S e m (fn.block (tip b s p)).term y := by
        rw [← g.term_ren htip, hren]; exact hg
      have hy : y ≠ s := by rintro rfl; exact g.no_s htip hg'.succ
      rw [← hren] at hφ hx
      rw [g.phi_env hy htip] at hx
      have hφ' := (g.phi_ok hy htip e).1 hφ
      obtain ⟨l2, k1, k2⟩ := ext (l0 := l) hy (fun e1 m1 hx1 => .step (c' := ⟨y, e1, m1⟩) hr (.mk hg' hφ' hx1)) hx
      exact ⟨l2, k1, by rw [k2, hl], hy⟩

theorem runs (g : Two S fn b s) (X : Id → Prop) :
    (∀ l c, Reach S fn l c → c.block ≠ b → ∃ c', Reach S (join fn b s) (l.filter (· ≠ s)) c' ∧
      Like S X fn (join fn b s) c c') ∧
    (∀ l' c', Reach S (join fn b s) l' c' → ∃ l c, Reach S fn l c ∧ c.block ≠ b ∧ l.filter (· ≠ s) = l' ∧
      Like S X fn (join fn b s) c c') := by
  constructor
  · intro l c hr hb
    refine ⟨_, (g.forth hr).1 hb, rfl, fun y => ?_, fun y => ?_, fun _ _ => rfl, ?_⟩
    · simp only [g.term_ren hb]
    · simp only [g.term_ren hb]
    · simp only [g.term_ren hb]
  · intro l' c' hr'
    obtain ⟨l, h1, h2, h3⟩ := g.back hr'
    have htip : tip b s c'.block ≠ b := by
      unfold tip
      split
      · exact Ne.symm g.neq
      · assumption
    have hren : ren s b (tip b s c'.block) = c'.block := by
      unfold tip
      split
      · rename_i h; rw [h, ren_self]
      · exact ren_ne h3
    have ht := g.term_ren htip
    rw [hren] at ht
    exact ⟨l, _, h1, htip, h2, rfl, fun y => by simp only [ht], fun y => by simp only [ht], fun _ _ => rfl,
      by simp only [ht]⟩

end Two

/-! ### All phis -/

theorem First.like {d a : Id} {t : Bool} {rest : List Phi} (g : First fn b s d a t rest) (hv : Valid S fn) {l}
    {c c' : Config V M} (h : Reach S fn l c) (hs : Alike d c c') :
    Like S (· = d) fn (drop1 fn s d a rest) c c' := by
  have ht := g.at_term hv h hs
  obtain ⟨y, e, m⟩ := c
  obtain ⟨y', e', m'⟩ := c'
  have h1 := hs.block
  have h2 := hs.mem
  simp only at h1 h2
  subst h1; subst h2
  refine ⟨rfl, fun y => ?_, fun z => ?_, hs.env, ?_⟩
  · rw [drop_term]; exact goes_sub ht
  · simp only [drop_term]
    cases (fn.block y').term <;> simp [subTerm]
  · simp only [drop_term, termReads_sub, List.map_map]
    exact List.map_congr_left ht

/-- What stays the same when phis are dropped. -/
structure Frame (fn fn' : Fn) (s : Lab) : Prop where
  entry : fn'.entry = fn.entry
  labels : fn'.labels = fn.labels
  merge : ∀ x, (fn'.block x).merge = (fn.block x).merge
  phis : ∀ x, x ≠ s → (fn'.block x).phis.map Phi.id = (fn.block x).phis.map Phi.id
  multi : ∀ x, (∃ g o t, (fn'.block x).term = .multi g o t) ↔ ∃ g o t, (fn.block x).term = .multi g o t

theorem drop_frame {d a : Id} {rest : List Phi} : Frame fn (drop1 fn s d a rest) s where
  entry := rfl
  labels := rfl
  merge := drop_merge
  phis x h := by rw [drop_phis h, map_phiId_sub]
  multi x := by
    rw [drop_term]
    cases (fn.block x).term <;> simp [subTerm]

theorem Frame.trans {f1 f2 f3 : Fn} (h : Frame f1 f2 s) (h' : Frame f2 f3 s) : Frame f1 f3 s :=
  ⟨h'.entry.trans h.entry, h'.labels.trans h.labels, fun x => (h'.merge x).trans (h.merge x),
    fun x hx => (h'.phis x hx).trans (h.phis x hx), fun x => (h'.multi x).trans (h.multi x)⟩

theorem dropPhis_spec : ∀ (n : Nat) (fn : Fn), Valid S fn → Only fn b s → (fn.block s).phis.length = n →
    Two S (iter (dropPhi · s) n fn) b s ∧ Frame fn (iter (dropPhi · s) n fn) s ∧
    (∀ l c, Reach S fn l c → ∃ c', Reach S (iter (dropPhi · s) n fn) l c' ∧ c'.block = c.block ∧
      Like S (· ∈ (fn.block s).phis.map Phi.id) fn (iter (dropPhi · s) n fn) c c') ∧
    (∀ l c', Reach S (iter (dropPhi · s) n fn) l c' → ∃ c, Reach S fn l c ∧ c'.block = c.block ∧
      Like S (· ∈ (fn.block s).phis.map Phi.id) fn (iter (dropPhi · s) n fn) c c')
  | 0, fn, hv, g, hl => by
    have hn : (fn.block s).phis = [] := List.eq_nil_of_length_eq_zero hl
    have hrefl : ∀ c : Config V M, Like S (· ∈ (fn.block s).phis.map Phi.id) fn fn c c :=
      fun c => ⟨rfl, fun _ => Iff.rfl, fun _ => Iff.rfl, fun _ _ => rfl, rfl⟩
    exact ⟨⟨g, hv, hn⟩, ⟨rfl, rfl, fun _ => rfl, fun _ _ => rfl, fun _ => Iff.rfl⟩,
      fun l c hc => ⟨c, hc, rfl, hrefl c⟩, fun l c hc => ⟨c, hc, rfl, hrefl c⟩⟩
  | n + 1, fn, hv, g, hl => by
    cases hφ : (fn.block s).phis with
    | nil => rw [hφ] at hl; simp at hl
    | cons φ rest =>
      obtain ⟨d, a, t, rfl, f⟩ := first_of hv g.toSole hφ
      simp only [iter]
      rw [drop_first hφ]
      have hl' : ((drop1 fn s d a rest).block s).phis.length = n := by
        rw [drop_phis_s, List.length_map]
        rw [hφ] at hl
        simpa using hl
      obtain ⟨h1, h2, h3, h4⟩ := dropPhis_spec n (drop1 fn s d a rest) (f.valid hv) (drop_only g) hl'
      have hX : ∀ x, (x = d ∨ x ∈ ((drop1 fn s d a rest).block s).phis.map Phi.id) →
          x ∈ ((⟨d, t, [(a, b)]⟩ : Phi) :: rest).map Phi.id := by
        intro x hx
        rw [drop_phis_s, map_phiId_sub] at hx
        simpa using hx
      refine ⟨h1, drop_frame.trans h2, ?_, ?_⟩
      · intro l c hc
        obtain ⟨c1, k1, k2⟩ := (f.runs hv).1 l c hc
        obtain ⟨c2, k3, k4, k5⟩ := h3 l c1 k1
        exact ⟨c2, k3, k4.trans k2.block, ((f.like hv hc k2).trans k5).mono hX⟩
      · intro l c2 hc2
        obtain ⟨c1, k1, k2, k3⟩ := h4 l c2 hc2
        obtain ⟨c, k4, k5⟩ := (f.runs hv).2 l c1 k1
        exact ⟨c, k4, k2.trans k5.block, ((f.like hv k4 k5).trans k3).mono hX⟩

/-! ### One merge -/

theorem merge_spec (hv : Valid S fn) (g : Only fn b s) :
    Valid S (mergeBlocks fn b s) ∧
    (∀ l c, Reach S fn l c → c.block ≠ b → ∃ c', Reach S (mergeBlocks fn b s) (l.filter (· ≠ s)) c' ∧
      Like S (· ∈ (fn.block s).phis.map Phi.id) fn (mergeBlocks fn b s) c c') ∧
    (∀ l' c', Reach S (mergeBlocks fn b s) l' c' → ∃ l c, Reach S fn l c ∧ c.block ≠ b ∧ l.filter (· ≠ s) = l' ∧
      Like S (· ∈ (fn.block s).phis.map Phi.id) fn (mergeBlocks fn b s) c c') := by
  obtain ⟨h1, h2, h3, h4⟩ := dropPhis_spec _ fn hv g rfl
  obtain ⟨r1, r2⟩ := h1.runs (fun _ => False)
  have hX : ∀ x : Id, (x ∈ (fn.block s).phis.map Phi.id ∨ False) → x ∈ (fn.block s).phis.map Phi.id := by
    rintro x (h | h)
    · exact h
    · exact h.elim
  refine ⟨h1.join_valid, ?_, ?_⟩
  · intro l c hc hb
    obtain ⟨c1, k1, k2, k3⟩ := h3 l c hc
    obtain ⟨c2, k4, k5⟩ := r1 l c1 k1 (by rw [k2]; exact hb)
    exact ⟨c2, k4, (k3.trans k5).mono hX⟩
  · intro l' c2 hc2
    obtain ⟨l, c1, k1, k2, k3, k4⟩ := r2 l' c2 hc2
    obtain ⟨c, k5, k6, k7⟩ := h4 l c1 k1
    exact ⟨l, c, k5, by rw [← k6]; exact k2, k3, (k7.trans k4).mono hX⟩

theorem ite_some {α : Type} {p : Prop} [Decidable p] {o : Option α} {x : α}
    (h : (if p then none else o) = some x) : ¬ p ∧ o = some x := by
  split at h
  · cases h
  · exact ⟨by assumption, h⟩

/-- What `canMerge` has checked. -/
theorem can_of {A b s} (h : canMerge fn A b = some s) :
    (fn.block b).term = .br s ∧ (fn.preds s).length = 1 ∧ ¬ (isMerge fn b = true ∧ isMerge fn s = true) ∧
    ¬ (isMerge fn s = true ∧ A.reconverge = true) ∧ ¬ (isMerge fn b = true ∧ isContinue fn s = true) ∧
    (∀ M, (fn.block b).merge = some M → mergeTarget M = s ∨
      ((fn.block s).merge = none ∧ ∀ g o t, (fn.block s).term ≠ .multi g o t)) ∧
    (isMerge fn s = true ∨ isContinue fn s = true → switchOk fn A b = true) := by
  unfold canMerge at h
  split at h
  · rename_i s' ht
    obtain ⟨h1, h⟩ := ite_some h
    obtain ⟨h2, h⟩ := ite_some h
    obtain ⟨h3, h⟩ := ite_some h
    obtain ⟨h4, h⟩ := ite_some h
    obtain ⟨h5, h⟩ := ite_some h
    obtain ⟨h6, h⟩ := ite_some h
    obtain rfl := Option.some.inj h
    refine ⟨ht, Classical.not_not.1 h1, by simpa using h2, by simpa using h3, by simpa using h4, ?_, ?_⟩
    · intro M hM
      rw [hM] at h5
      by_cases hs : mergeTarget M = s'
      · exact .inl hs
      · refine .inr ?_
        simp only [Bool.and_eq_true, bne_iff_ne, Bool.or_eq_true, not_and, not_or] at h5
        obtain ⟨k1, k2⟩ := h5 hs
        refine ⟨?_, fun g o t e => ?_⟩
        · unfold isHeader at k1
          cases hm : (fn.block s').merge with
          | none => rfl
          | some _ => rw [hm] at k1; simp at k1
        · rw [e] at k2; simp at k2
    · intro hs
      simp only [Bool.and_eq_true, Bool.or_eq_true, Bool.not_eq_true', not_and] at h6
      simpa using h6 hs
  · cases h

theorem can_only {A b s} (hv : Valid S fn) (hr : Reachable fn b) (h : canMerge fn A b = some s) : Only fn b s := by
  obtain ⟨ht, hl, _⟩ := can_of h
  have hs : s ∈ fn.succs b := by simp [Fn.succs, ht, Term.succs]
  refine ⟨⟨hs, fun p hp => ?_, hr⟩, ht⟩
  replace hp := (mem_preds hv.toBase.toValid).2 hp
  have hm : b ∈ fn.preds s := (mem_preds hv.toBase.toValid).2 (by simp [Fn.succs, ht, Term.succs])
  match he : fn.preds s, hl with
  | [q], _ => rw [he] at hm hp; simp at hm hp; rw [hm, hp]

/-! ### Labels -/

theorem merge_frame (hv : Valid S fn) (g : Only fn b s) : Frame fn (dropPhis fn s) s :=
  (dropPhis_spec _ fn hv g rfl).2.1

theorem merge_two (hv : Valid S fn) (g : Only fn b s) : Two S (dropPhis fn s) b s :=
  (dropPhis_spec _ fn hv g rfl).1

theorem merge_labels (hv : Valid S fn) (g : Only fn b s) {x} :
    x ∈ (mergeBlocks fn b s).labels ↔ x ∈ fn.labels ∧ x ≠ s := by
  show x ∈ (dropPhis fn s).labels.filter (· ≠ s) ↔ _
  rw [(merge_frame hv g).labels, List.mem_filter]
  simp

theorem merge_phis (hv : Valid S fn) (g : Only fn b s) {x} (hx : x ≠ s) :
    ((mergeBlocks fn b s).block x).phis.map Phi.id = (fn.block x).phis.map Phi.id := by
  rw [← (merge_frame hv g).phis x hx]
  show ((join (dropPhis fn s) b s).block x).phis.map Phi.id = _
  rw [(merge_two hv g).phis_x hx, Two.map_renPhi]

theorem reach_listed (hv : Valid S fn) {l} {c : Config V M} (h : Reach S fn l c) : ∀ x ∈ l, x ∈ fn.labels := by
  induction h with
  | start h =>
    intro x hx
    simp at hx
    rw [hx]; exact hv.first
  | @step l c c' hr hs ih =>
    intro x hx
    rcases List.mem_cons.1 hx with rfl | hx
    · cases hs with
      | mk hg _ _ => exact hv.targets _ _ hg.succ
    · exact ih x hx

/-- Phis of blocks that are gone. -/
def Gone (fn fn' : Fn) (x : Id) : Prop := ∃ s, s ∉ fn'.labels ∧ x ∈ (fn.block s).phis.map Phi.id

theorem Like.same {fn' : Fn} {c c' : Config V M} (h : Like S (Gone fn fn') fn fn' c c') : Same S fn fn' c c' :=
  ⟨h.mem, h.goes, fun x hx => h.env x (fun ⟨s, h1, h2⟩ => hx s h1 h2), h.reads⟩

theorem merges_spec {A live} {fn fn' : Fn} (hl : ∀ f b, live f b → Reachable f b) (h : Merges A live fn fn')
    (hv : Valid S fn) :
    Valid S fn' ∧ (∀ x ∈ fn'.labels, x ∈ fn.labels) ∧
    (∀ l c, Reach S fn l c → (∀ s, (fn.block c.block).term = .br s → s ∈ fn'.labels) →
      ∃ c', Reach S fn' (l.filter (· ∈ fn'.labels)) c' ∧ Like S (Gone fn fn') fn fn' c c') ∧
    (∀ l' c', Reach S fn' l' c' → ∃ l c, Reach S fn l c ∧ l' = l.filter (· ∈ fn'.labels) ∧
      Like S (Gone fn fn') fn fn' c c') := by
  induction h with
  | @none fn =>
    have hf : ∀ {l} {c : Config V M}, Reach S fn l c → l.filter (· ∈ fn.labels) = l := by
      intro l c h
      exact List.filter_eq_self.2 fun x hx => by simpa using reach_listed hv h x hx
    have hrefl : ∀ c : Config V M, Like S (Gone fn fn) fn fn c c :=
      fun c => ⟨rfl, fun _ => Iff.rfl, fun _ => Iff.rfl, fun _ _ => rfl, rfl⟩
    exact ⟨hv, fun _ h => h, fun l c hc _ => ⟨c, by rw [hf hc]; exact hc, hrefl c⟩,
      fun l c hc => ⟨l, c, hc, (hf hc).symm, hrefl c⟩⟩
  | @one fn fn' b s hlive hcan _ ih =>
    have g := can_only hv (hl _ _ hlive) hcan
    obtain ⟨h1, h2, h3⟩ := merge_spec hv g
    obtain ⟨i1, i2, i3, i4⟩ := ih h1
    have hs : s ∉ fn'.labels := fun h => ((merge_labels hv g).1 (i2 s h)).2 rfl
    have hfil : ∀ l : List Lab, (l.filter (· ≠ s)).filter (· ∈ fn'.labels) = l.filter (· ∈ fn'.labels) := by
      intro l
      rw [List.filter_filter]
      refine List.filter_congr fun x _ => ?_
      by_cases hx : x ∈ fn'.labels
      · have : x ≠ s := by rintro rfl; exact hs hx
        simp [hx, this]
      · simp [hx]
    have hX : ∀ x, (x ∈ (fn.block s).phis.map Phi.id ∨ Gone (mergeBlocks fn b s) fn' x) → Gone fn fn' x := by
      rintro x (hx | ⟨y, k1, k2⟩)
      · exact ⟨s, hs, hx⟩
      · by_cases hy : y = s
        · subst hy
          have : ((mergeBlocks fn b y).block y).phis = [] := by
            show ((join (dropPhis fn y) b y).block y).phis = []
            rw [Two.block_s]
          rw [this] at k2; simp at k2
        · exact ⟨y, k1, by rw [← merge_phis hv g hy]; exact k2⟩
    refine ⟨i1, fun x hx => ((merge_labels hv g).1 (i2 x hx)).1, ?_, ?_⟩
    · intro l c hc hbr
      have hb : c.block ≠ b := by
        intro e
        exact hs (hbr s (by rw [e]; exact g.term))
      obtain ⟨c1, k1, k2⟩ := h2 l c hc hb
      obtain ⟨c2, k3, k4⟩ := i3 _ c1 k1 (fun t ht => hbr t ((k2.br t).1 ht))
      exact ⟨c2, by rw [hfil] at k3; exact k3, (k2.trans k4).mono hX⟩
    · intro l2 c2 hc2
      obtain ⟨l1, c1, k1, rfl, k2⟩ := i4 l2 c2 hc2
      obtain ⟨l, c, k3, _, rfl, k4⟩ := h3 l1 c1 k1
      exact ⟨l, c, k3, hfil l, (k4.trans k2).mono hX⟩

end Verif.BlockMerge.Spec
