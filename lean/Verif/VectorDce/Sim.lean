import Verif.VectorDce.Sub
set_option linter.unusedSimpArgs false
set_option linter.unusedVariables false
set_option linter.unusedSectionVars false
/-!
# Executions before and after the pass, side by side
-/
namespace Verif.VectorDce
open Verif.SsaExec Verif.VectorDce.Spec
variable {I B X M : Type} [DecidableEq I] {f : Func I B} {S : Base I B X M} {live : I → Option Nat}

abbrev Cfg (I B X M : Type) := Config I B (Nat → X) M

theorem mem_insts (hT : Typed f) {b i} (h : i ∈ f.phis b ++ f.body b) : i ∈ f.insts := by
  simp only [Func.insts, List.mem_flatMap]
  exact ⟨b, hT.blocks b, h⟩

theorem insts_mem {i} (h : i ∈ f.insts) : ∃ b, i ∈ f.code.all b := by
  simp only [Func.insts, List.mem_flatMap] at h
  obtain ⟨b, -, h⟩ := h
  exact ⟨b, h⟩

theorem Fwd.body (hT : Typed f) {d e} (h : Fwd f live d e) : ∃ b, d ∈ f.body b := by
  obtain ⟨b, hb⟩ := insts_mem h.inst
  simp only [Code.all, Func.code, List.mem_append] at hb
  rcases hb with hb | hb
  · have := (hT.phi b d hb).1
    obtain ⟨idx, o, c, b, hk, -⟩ := h.why
    rw [this] at hk
    cases hk
  · exact ⟨b, hb⟩

theorem Fwd.not_term (hT : Typed f) {d e} (h : Fwd f live d e) : ¬ IsTerm f.code d := by
  rintro ⟨b, l, hb⟩
  have := hT.term b l d hb
  rw [h.comb] at this
  cases this

theorem Fwd.not_phi (hT : Typed f) {d e} (h : Fwd f live d e) (b) : d ∉ f.phis b := by
  intro hb
  have := (hT.phi b d hb).1
  obtain ⟨idx, o, c, b, hk, -⟩ := h.why
  rw [this] at hk
  cases hk

/-- A bypassed insertion has the live components of what is used instead, from when it is executed until
that is executed again. -/
theorem fwd_reach (hT : Typed f) (hc : Closed f live) {c : Cfg I B X M} (h : Reach f.code (sem f S) c) :
    ∀ d e, Fwd f live d e → After c.hist d e → ∀ x y, c.env d = some x → c.env e = some y →
      ∀ k, L f live d k → x k = y k := by
  induction h with
  | start =>
    intro d e _ ha
    obtain ⟨l1, l2, h, -⟩ := ha
    simp [Start] at h
  | @step c c' h hs ih =>
    intro d e hf ha x y hx hy k hL
    cases hs with
    | @act b i j r env m hh a v m' hr hact =>
      simp only at *
      by_cases hde : d = e
      · subst hde
        rw [hx] at hy
        cases hy
        rfl
      by_cases hdi : d = i
      · subst hdi
        have hy' : env e = some y := by
          simpa [define, Ne.symm hde] using hy
        simp only [define, if_true] at hx
        cases hx
        simp only [sem, hf.comb, if_true] at hact
        exact hact.2 k _ ((hf.keeps (S := S) hT hc hL).2 env a y m hr hy')
      · obtain ⟨h1, h2⟩ := After.skip (q := [i]) (h := hh) ha (by simpa using hdi)
        simp at h1
        simp only [define, hdi, h1, if_false] at hx hy
        exact ih d e hf h2 x y hx hy k hL
    | @jump b i env m hh a b' env' hr hj hsu hph hot =>
      simp only at *
      have hdp := hf.not_phi hT b'
      have hdi : d ≠ i := by
        rintro rfl
        obtain ⟨pre, hp⟩ : ∃ pre, f.body b = pre ++ [d] := by
          have : ∀ {c : Cfg I B X M}, Reach f.code (sem f S) c → ∃ pre, f.body c.block = pre ++ c.rest := by
            intro c hc
            induction hc with
            | start => exact ⟨[], rfl⟩
            | step _ hs ih =>
              cases hs with
              | act => obtain ⟨pre, hp⟩ := ih; exact ⟨pre ++ [_], by simpa using hp⟩
              | jump => exact ⟨[], rfl⟩
          exact this ‹Reach _ _ _›
        exact hf.not_term hT ⟨b, pre, hp⟩
      have ha' : After (((f.phis b').reverse ++ [i]) ++ hh) d e := by
        simpa [Func.code] using ha
      obtain ⟨h1, h2⟩ := After.skip ha' (by simp [hdp, hdi])
      simp at h1
      rw [hot d hdp] at hx
      rw [hot e h1.1] at hy
      exact ih d e hf h2 x y hx hy k hL

/-- The id is defined where control is. -/
def Avail (f : Func I B) (S : Base I B X M) (d u : I) : Prop :=
  S.start d ≠ none ∨ (Dom f.code d u ∧ ¬ IsTerm f.code d)

theorem use_chain (hT : Typed f) (hc : Closed f live) (hv : Valid f.code fun d => S.start d ≠ none)
    {c : Cfg I B X M} (h : Reach f.code (sem f S) c) {u r} (hu : c.rest = u :: r) {d e} (hch : Chain f live d e)
    (ha : Avail f S d u) : ∃ x y, c.env d = some x ∧ c.env e = some y ∧
      ∀ k, L f live d k → L f live e k ∧ x k = y k := by
  have hat := at_reach (S := sem f S) hv h
  induction hch with
  | refl d =>
    obtain ⟨x, hx⟩ := hat.value hu ha
    exact ⟨x, x, hx, hx, fun k hk => ⟨hk, rfl⟩⟩
  | @cons d e e' hf _ ih =>
    obtain ⟨b, hb⟩ := hf.body hT
    have hnG : ¬ S.start d ≠ none := hv.inside b d (by simp [Code.all, Func.code, hb])
    have hdu : Dom f.code d u := by
      rcases ha with ha | ha
      · exact absurd ha hnG
      · exact ha.1
    have he : S.start e ≠ none ∨ (Dom f.code e d ∧ ¬ IsTerm f.code e) :=
      hv.ops b d hb e (by simp [Func.code, hf.mem_ops])
    obtain ⟨u', r', hu', ht⟩ := hat.here
    rw [hu] at hu'
    cases hu'
    have haft : After c.hist d e := by
      rcases he with he | ⟨he, -⟩
      · refine after_absent (hdu _ ht) ?_
        intro hm
        obtain ⟨b', hb'⟩ := hat.inside e hm
        exact hv.inside b' e hb' he
      · exact dom_after ht hdu he
    have hae : Avail f S e u := by
      rcases he with he | ⟨he, hn⟩
      · exact .inl he
      · exact .inr ⟨he.trans hdu, hn⟩
    obtain ⟨y, z, hy, hz, hk⟩ := ih hae
    obtain ⟨x, hx⟩ := hat.value hu ha
    refine ⟨x, z, hx, hz, fun k hL => ?_⟩
    have h1 := (hf.keeps (S := S) hT hc hL).1
    refine ⟨(hk k h1).1, ?_⟩
    rw [fwd_reach hT hc h d e hf haft x y hx hy k hL]
    exact (hk k h1).2

/-- The relation kept. -/
structure Rel (f : Func I B) (live : I → Option Nat) (c c' : Cfg I B X M) : Prop where
  same : Match c c'
  none : ∀ d, c.env d = .none ↔ c'.env d = .none
  agree : ∀ d x x', c.env d = some x → c'.env d = some x' → ∀ k, L f live d k → x k = x' k

variable {s : Rewrite I}

theorem dead_L (hc : Closed f live) {e k} (h : live e = some 0) : ¬ L f live e k := by
  have := hc.tracked e 0 h
  unfold L
  split
  · next hs => simp [Func.tracked, hs] at this
  · simp [h]
  · simp [h]

theorem read_iff (hT : Typed f) (hc : Closed f live) (hv : Valid f.code fun d => S.start d ≠ none)
    (hs : RInv f live s) {c c' : Cfg I B X M} (h : Reach f.code (sem f S) c) (hR : Rel f live c c')
    {u r} (hu : c.rest = u :: r) {d} (ha : Avail f S d u) :
    (∀ x, c.env d = some x → ∃ x', Read c'.env (s.sub d) x' ∧ ∀ k, L f live d k → x k = x' k) ∧
    (∀ x', Read c'.env (s.sub d) x' → ∃ x, c.env d = some x ∧ ∀ k, L f live d k → x k = x' k) := by
  cases hd : s.sub d with
  | id e =>
    obtain ⟨x, y, hx, hy, hk⟩ := use_chain hT hc hv h hu (hs.id d e hd) ha
    have : ∃ y', c'.env e = some y' := by
      cases hy' : c'.env e with
      | none => rw [(hR.none e).mpr hy'] at hy; cases hy
      | some y' => exact ⟨y', rfl⟩
    obtain ⟨y', hy'⟩ := this
    have key : ∀ k, L f live d k → x k = y' k := by
      intro k hL
      rw [(hk k hL).2]
      exact hR.agree e y y' hy hy' k (hk k hL).1
    constructor
    · intro x0 hx0
      rw [hx] at hx0
      cases hx0
      exact ⟨y', hy', key⟩
    · intro x' hx'
      simp only [Read] at hx'
      rw [hy'] at hx'
      cases hx'
      exact ⟨x, hx, key⟩
  | undef =>
    obtain ⟨e, hch, he⟩ := hs.undef d hd
    obtain ⟨x, y, hx, hy, hk⟩ := use_chain hT hc hv h hu hch ha
    have nL : ∀ k, ¬ L f live d k := fun k hL => dead_L hc he (hk k hL).1
    constructor
    · intro x0 hx0
      exact ⟨x0, trivial, fun _ _ => rfl⟩
    · intro x' _
      exact ⟨x, hx, fun k hL => absurd hL (nL k)⟩

theorem readAll_fwd {env env' : I → Option (Nat → X)} {sub : I → Operand I} : ∀ (ds : List I) (a : List (Nat → X)),
    (∀ d ∈ ds, ∀ x, env d = some x → ∃ x', Read env' (sub d) x' ∧ ∀ k, L f live d k → x k = x' k) →
    ReadAll env (ds.map .id) a → ∃ a', ReadAll env' (ds.map sub) a' ∧ Agree f live ds a a' := by
  intro ds
  induction ds with
  | nil => intro a _ h; cases h; exact ⟨[], .nil, .nil⟩
  | cons d ds ih =>
    intro a hd h
    cases h with
    | cons h1 h2 =>
      obtain ⟨x', h3, h4⟩ := hd d (by simp) _ h1
      obtain ⟨a', h5, h6⟩ := ih _ (fun d hm => hd d (by simp [hm])) h2
      exact ⟨x' :: a', .cons h3 h5, .cons h4 h6⟩

theorem readAll_bwd {env env' : I → Option (Nat → X)} {sub : I → Operand I} : ∀ (ds : List I) (a' : List (Nat → X)),
    (∀ d ∈ ds, ∀ x', Read env' (sub d) x' → ∃ x, env d = some x ∧ ∀ k, L f live d k → x k = x' k) →
    ReadAll env' (ds.map sub) a' → ∃ a, ReadAll env (ds.map .id) a ∧ Agree f live ds a a' := by
  intro ds
  induction ds with
  | nil => intro a _ h; cases h; exact ⟨[], .nil, .nil⟩
  | cons d ds ih =>
    intro a hd h
    cases h with
    | cons h1 h2 =>
      obtain ⟨x', h3, h4⟩ := hd d (by simp) _ h1
      obtain ⟨a', h5, h6⟩ := ih _ (fun d hm => hd d (by simp [hm])) h2
      exact ⟨x' :: a', .cons h3 h5, .cons h4 h6⟩

/-- What the operands must have in common. -/
def OpsGood (f : Func I B) (S : Base I B X M) (live : I → Option Nat) (i : I) (a a' : List (Nat → X)) : Prop :=
  (∀ m k, L f live i k → comp f S i a m k = comp f S i a' m k) ∧
  (f.root i → Same f (f.ops i) a a')

theorem agree_good (hT : Typed f) (hD : Depends f S) (hc : Closed f live) {i} (hi : i ∈ f.insts) {a a'}
    (h : Agree f live (f.ops i) a a') : OpsGood f S live i a a' :=
  ⟨fun m k hL => comp_eq hT hD hc hi hL h m, fun hr => h.same (root_full hT hc hi hr).ops⟩

theorem ops_iff (hT : Typed f) (hD : Depends f S) (hc : Closed f live) (hv : Valid f.code fun d => S.start d ≠ none)
    (hs : RInv f live s) {c c' : Cfg I B X M} (h : Reach f.code (sem f S) c) (hR : Rel f live c c')
    {i r} (hu : c.rest = i :: r) :
    (∀ a, ReadAll c.env (f.code.ops i) a → ∃ a', ReadAll c'.env ((f.after s).ops i) a' ∧ OpsGood f S live i a a') ∧
    (∀ a', ReadAll c'.env ((f.after s).ops i) a' → ∃ a, ReadAll c.env (f.code.ops i) a ∧ OpsGood f S live i a a') := by
  have hat := at_reach (S := sem f S) hv h
  obtain ⟨pre, hp⟩ := hat.split
  have hib : i ∈ f.body c.block := by
    have : f.code.body c.block = f.body c.block := rfl
    rw [← this, hp, hu]; simp
  have hii : i ∈ f.insts := mem_insts hT (b := c.block) (by simp [hib])
  have hrd := fun d (hd : d ∈ f.ops i) => read_iff hT hc hv hs h hR hu (d := d)
    (hv.ops c.block i hib d (by simp [Func.code, hd]))
  by_cases hcut : i ∈ s.cut
  · obtain ⟨hcomb, p, idx, b, o, q, hk, hb, h0, ho⟩ := hs.cut i hcut
    have hroot : f.root i = false := by simp [Func.root, hc.tracked i b hb, hcomb]
    have e1 : (f.after s).ops i = [s.sub o, .undef] := by simp [Func.after, hcut, ho]
    have e2 : f.code.ops i = [.id o, .id q] := by simp [Func.code, ho]
    rw [e1, e2]
    constructor
    · intro a ha
      cases ha with
      | cons h1 h2 =>
      cases h2 with
      | cons h2 h3 =>
      cases h3
      next v w =>
      obtain ⟨x', h4, h5⟩ := (hrd o (by simp [ho])).1 _ h1
      refine ⟨[x', w], .cons h4 (.cons trivial .nil), ?_, by simp [hroot]⟩
      intro m k hL
      exact comp_cut hT hc hii hL hk hb h0 ho h5 m
    · intro a ha
      cases ha with
      | cons h1 h2 =>
      cases h2 with
      | cons h2 h3 =>
      cases h3
      next v w =>
      obtain ⟨x, h4, h5⟩ := (hrd o (by simp [ho])).2 _ h1
      obtain ⟨y, hy⟩ := hat.value hu (hv.ops c.block i hib q (by simp [Func.code, ho]))
      refine ⟨[x, y], .cons h4 (.cons hy .nil), ?_, by simp [hroot]⟩
      intro m k hL
      exact comp_cut hT hc hii hL hk hb h0 ho h5 m
  · have e1 : (f.after s).ops i = (f.ops i).map s.sub := by simp [Func.after, hcut]
    rw [e1]
    constructor
    · intro a ha
      obtain ⟨a', h1, h2⟩ := readAll_fwd (f := f) (live := live) (f.ops i) a (fun d hd => (hrd d hd).1) ha
      exact ⟨a', h1, agree_good hT hD hc hii h2⟩
    · intro a ha
      obtain ⟨a', h1, h2⟩ := readAll_bwd (f := f) (live := live) (f.ops i) a (fun d hd => (hrd d hd).2) ha
      exact ⟨a', h1, agree_good hT hD hc hii h2⟩

theorem rel_define {c c' : Cfg I B X M} (hR : Rel f live c c') {i x x'} (hx : ∀ k, L f live i k → x k = x' k) :
    (∀ d, define c.env i x d = .none ↔ define c'.env i x' d = .none) ∧
    (∀ d y y', define c.env i x d = some y → define c'.env i x' d = some y' → ∀ k, L f live d k → y k = y' k) := by
  constructor
  · intro d
    simp only [define]
    split
    · simp
    · exact hR.none d
  · intro d y y' hy hy' k hL
    simp only [define] at hy hy'
    by_cases hd : d = i
    · subst hd
      simp at hy hy'
      subst hy hy'
      exact hx k hL
    · simp only [hd, if_false] at hy hy'
      exact hR.agree d y y' hy hy' k hL

theorem phi_L (hT : Typed f) (hc : Closed f live) {b p d b'} (hp : p ∈ f.phis b) (hd : (d, b') ∈ f.args p) {k}
    (hL : L f live p k) : L f live d k := by
  obtain ⟨hk, ho, hsh⟩ := hT.phi b p hp
  have hs := hsh _ hd
  simp only at hs
  have hii : p ∈ f.insts := mem_insts hT (b := b) (by simp [hp])
  rcases L_why hT hc hii hL with ⟨h3, -⟩ | ⟨h3, h4, c0, h5, h6⟩
  · simp [L, hs, h3]
  · have := lanes_L (i := p) (c := c0) (k := k) (fun it hit => h6 it (by simpa [Func.mark, hk] using hit)) h5 d
      (by simp only [Func.uses, List.mem_append, List.mem_map]; exact .inr ⟨_, hd, rfl⟩)
    split at this
    · next hsc => rw [h4 (hs ▸ hsc)]; exact this
    · exact this

theorem term_root (hT : Typed f) {b l t} (h : f.body b = l ++ [t]) : f.root t := by
  simp [Func.root, hT.term b l t h]

theorem step_fwd (hT : Typed f) (hD : Depends f S) (hc : Closed f live) (hv : Valid f.code fun d => S.start d ≠ none)
    (hs : RInv f live s) {c c' d : Cfg I B X M} (h : Reach f.code (sem f S) c) (hR : Rel f live c c')
    (hst : Step f.code (sem f S) c d) : ∃ d', Step (f.after s) (sem f S) c' d' ∧ Rel f live d d' := by
  have hat := at_reach (S := sem f S) hv h
  obtain ⟨block', rest', env', mem', hist'⟩ := c'
  cases hst with
  | @act b i j r env m hh a x m' hr hact =>
    obtain ⟨e1, e2, e3, e4⟩ := hR.same
    simp only at e1 e2 e3 e4
    subst e1 e2 e3 e4
    obtain ⟨a', ha', hg⟩ := (ops_iff hT hD hc hv hs h hR rfl).1 a hr
    by_cases hcomb : f.combinator i
    · simp only [sem, hcomb, if_true] at hact
      obtain ⟨rfl, hx⟩ := hact
      refine ⟨⟨b, j :: r, define env' i fun k => (comp f S i a' m' k).getD (x k), m', i :: hh⟩, .act ha' ?_, ?_⟩
      · simp only [sem, hcomb, if_true, true_and]
        intro k y hy
        simp [hy]
      · have := rel_define hR (i := i) (x := x) (x' := fun k => (comp f S i a' m' k).getD (x k)) (by
          intro k hL
          simp only [← hg.1 m' k hL]
          cases hcp : comp f S i a m' k with
          | none => rfl
          | some y => simp [hx k y hcp])
        exact ⟨⟨rfl, rfl, rfl, rfl⟩, this.1, this.2⟩
    · simp only [sem, hcomb] at hact
      simp only [Bool.false_eq_true, if_false] at hact
      rw [hD.act i a a' (hg.2 (by simp [Func.root, hcomb]))] at hact
      refine ⟨⟨b, j :: r, define env' i x, m', i :: hh⟩, .act ha' ?_, ?_⟩
      · simp only [sem, hcomb]
        simpa using hact
      · have := rel_define hR (i := i) (x := x) (x' := x) (fun _ _ => rfl)
        exact ⟨⟨rfl, rfl, rfl, rfl⟩, this.1, this.2⟩
  | @jump b i env m hh a b' env2 hr hj hsu hph hot =>
    obtain ⟨e1, e2, e3, e4⟩ := hR.same
    simp only at e1 e2 e3 e4
    subst e1 e2 e3 e4
    obtain ⟨a', ha', hg⟩ := (ops_iff hT hD hc hv hs h hR rfl).1 a hr
    obtain ⟨pre, hp⟩ := hat.split
    simp only at hp
    have hj' : S.jump i a' m b' := by
      rw [← hD.jump i a a' (hg.2 (term_root hT hp))]
      exact hj
    have hphi : ∀ p, p ∈ f.phis b' → ∃ x', (∃ o, (o, b) ∈ (f.after s).args p ∧ Read env' o x') ∧
        ∀ x, env2 p = some x → ∀ k, L f live p k → x k = x' k := by
      intro p hpp
      obtain ⟨o, x, ho, hrx, hex⟩ := hph p hpp
      simp only [Func.code, List.mem_map] at ho
      obtain ⟨⟨d, b2⟩, hd, he⟩ := ho
      simp only [Prod.mk.injEq] at he
      obtain ⟨rfl, rfl⟩ := he
      obtain ⟨x', h1, h2⟩ := (read_iff hT hc hv hs h hR rfl (d := d)
        (hv.args b' p hpp d b2 (by simp [Func.code]; exact hd) pre i hp hsu)).1 x hrx
      refine ⟨x', ⟨s.sub d, ?_, h1⟩, ?_⟩
      · simp only [Func.after, List.mem_map]
        exact ⟨_, hd, rfl⟩
      · intro x0 hx0 k hL
        rw [hex] at hx0
        cases hx0
        exact h2 k (phi_L hT hc hpp hd hL)
    refine ⟨⟨b', f.body b', fun p => if hpp : p ∈ f.phis b' then some (Classical.choose (hphi p hpp)) else env' p,
      m, (f.phis b').reverse ++ i :: hh⟩, .jump ha' hj' hsu ?_ ?_, ⟨rfl, rfl, rfl, rfl⟩, ?_, ?_⟩
    · intro p hpp
      have hpp' : p ∈ f.phis b' := hpp
      obtain ⟨o, ho, hro⟩ := (Classical.choose_spec (hphi p hpp')).1
      exact ⟨o, _, ho, hro, by simp [hpp']⟩
    · intro d hd
      have hd' : d ∉ f.phis b' := hd
      simp [hd']
    · intro d
      by_cases hd : d ∈ f.phis b'
      · obtain ⟨o, x, -, -, he⟩ := hph d hd
        simp [hd, he]
      · simp only [hd, dite_false]
        rw [hot d hd]
        exact hR.none d
    · intro d x x' hx hx' k hL
      by_cases hd : d ∈ f.phis b'
      · simp only [hd, dite_true, Option.some.injEq] at hx'
        subst hx'
        exact (Classical.choose_spec (hphi d hd)).2 x hx k hL
      · simp only [hd, dite_false] at hx'
        simp only [hot d hd] at hx
        exact hR.agree d x x' hx hx' k hL

theorem step_bwd (hT : Typed f) (hD : Depends f S) (hc : Closed f live) (hv : Valid f.code fun d => S.start d ≠ none)
    (hs : RInv f live s) {c c' d' : Cfg I B X M} (h : Reach f.code (sem f S) c) (hR : Rel f live c c')
    (hst : Step (f.after s) (sem f S) c' d') : ∃ d, Step f.code (sem f S) c d ∧ Rel f live d d' := by
  have hat := at_reach (S := sem f S) hv h
  obtain ⟨block', rest', env', mem', hist'⟩ := c
  cases hst with
  | @act b i j r env m hh a x m' hr hact =>
    obtain ⟨e1, e2, e3, e4⟩ := hR.same
    simp only at e1 e2 e3 e4
    subst e1 e2 e3 e4
    obtain ⟨a', ha', hg⟩ := (ops_iff hT hD hc hv hs h hR rfl).2 a hr
    by_cases hcomb : f.combinator i
    · simp only [sem, hcomb, if_true] at hact
      obtain ⟨rfl, hx⟩ := hact
      refine ⟨⟨block', j :: r, define env' i fun k => (comp f S i a' m' k).getD (x k), m', i :: hist'⟩, .act ha' ?_, ?_⟩
      · simp only [sem, hcomb, if_true, true_and]
        intro k y hy
        simp [hy]
      · have := rel_define hR (i := i) (x' := x) (x := fun k => (comp f S i a' m' k).getD (x k)) (by
          intro k hL
          simp only [hg.1 m' k hL]
          cases hcp : comp f S i a m' k with
          | none => rfl
          | some y => simp [hx k y hcp])
        exact ⟨⟨rfl, rfl, rfl, rfl⟩, this.1, this.2⟩
    · simp only [sem, hcomb] at hact
      simp only [Bool.false_eq_true, if_false] at hact
      rw [← hD.act i a' a (hg.2 (by simp [Func.root, hcomb]))] at hact
      refine ⟨⟨block', j :: r, define env' i x, m', i :: hist'⟩, .act ha' ?_, ?_⟩
      · simp only [sem, hcomb]
        simpa using hact
      · have := rel_define hR (i := i) (x := x) (x' := x) (fun _ _ => rfl)
        exact ⟨⟨rfl, rfl, rfl, rfl⟩, this.1, this.2⟩
  | @jump b i env m hh a b' env2 hr hj hsu hph hot =>
    obtain ⟨e1, e2, e3, e4⟩ := hR.same
    simp only at e1 e2 e3 e4
    subst e1 e2 e3 e4
    obtain ⟨a', ha', hg⟩ := (ops_iff hT hD hc hv hs h hR rfl).2 a hr
    obtain ⟨pre, hp⟩ := hat.split
    simp only at hp
    have hj' : S.jump i a' mem' b' := by
      rw [hD.jump i a' a (hg.2 (term_root hT hp))]
      exact hj
    have hphi : ∀ p, p ∈ f.phis b' → ∃ x, (∃ o, (o, block') ∈ f.code.args p ∧ Read env' o x) ∧
        ∀ x', env2 p = some x' → ∀ k, L f live p k → x k = x' k := by
      intro p hpp
      obtain ⟨o, x', ho, hrx, hex⟩ := hph p hpp
      simp only [Func.after, List.mem_map] at ho
      obtain ⟨⟨d, b2⟩, hd, he⟩ := ho
      simp only [Prod.mk.injEq] at he
      obtain ⟨rfl, rfl⟩ := he
      obtain ⟨x, h1, h2⟩ := (read_iff hT hc hv hs h hR rfl (d := d)
        (hv.args b' p hpp d b2 (by simp [Func.code]; exact hd) pre i hp hsu)).2 x' hrx
      refine ⟨x, ⟨.id d, ?_, h1⟩, ?_⟩
      · simp only [Func.code, List.mem_map]
        exact ⟨_, hd, rfl⟩
      · intro x0 hx0 k hL
        rw [hex] at hx0
        cases hx0
        exact h2 k (phi_L hT hc hpp hd hL)
    refine ⟨⟨b', f.body b', fun p => if hpp : p ∈ f.phis b' then some (Classical.choose (hphi p hpp)) else env' p,
      mem', (f.phis b').reverse ++ i :: hist'⟩, .jump ha' hj' hsu ?_ ?_, ⟨rfl, rfl, rfl, rfl⟩, ?_, ?_⟩
    · intro p hpp
      have hpp' : p ∈ f.phis b' := hpp
      obtain ⟨o, ho, hro⟩ := (Classical.choose_spec (hphi p hpp')).1
      exact ⟨o, _, ho, hro, by simp [hpp']⟩
    · intro d hd
      have hd' : d ∉ f.phis b' := hd
      simp [hd']
    · intro d
      by_cases hd : d ∈ f.phis b'
      · obtain ⟨o, x, -, -, he⟩ := hph d hd
        simp [hd, he]
      · simp only [hd, dite_false]
        rw [hot d hd]
        exact hR.none d
    · intro d x x' hx hx' k hL
      by_cases hd : d ∈ f.phis b'
      · simp only [hd, dite_true, Option.some.injEq] at hx
        subst hx
        exact (Classical.choose_spec (hphi d hd)).2 x' hx' k hL
      · simp only [hd, dite_false] at hx
        simp only [hot d hd] at hx'
        exact hR.agree d x x' hx hx' k hL

theorem rel_start : Rel f live (Start f.code (sem f S)) (Start (f.after s) (sem f S)) := by
  refine ⟨⟨rfl, rfl, rfl, rfl⟩, fun _ => Iff.rfl, ?_⟩
  intro d x x' h h' k _
  simp only [Start] at h h'
  rw [h] at h'
  cases h'
  rfl

theorem sim_fwd (hT : Typed f) (hD : Depends f S) (hc : Closed f live) (hv : Valid f.code fun d => S.start d ≠ none)
    (hs : RInv f live s) {c : Cfg I B X M} (h : Reach f.code (sem f S) c) :
    ∃ c', Reach (f.after s) (sem f S) c' ∧ Rel f live c c' := by
  induction h with
  | start => exact ⟨_, .start, rel_start⟩
  | step h hst ih =>
    obtain ⟨c', h1, h2⟩ := ih
    obtain ⟨d', h3, h4⟩ := step_fwd hT hD hc hv hs h h2 hst
    exact ⟨d', .step h1 h3, h4⟩

theorem sim_bwd (hT : Typed f) (hD : Depends f S) (hc : Closed f live) (hv : Valid f.code fun d => S.start d ≠ none)
    (hs : RInv f live s) {c' : Cfg I B X M} (h : Reach (f.after s) (sem f S) c') :
    ∃ c, Reach f.code (sem f S) c ∧ Rel f live c c' := by
  induction h with
  | start => exact ⟨_, .start, rel_start⟩
  | step h hst ih =>
    obtain ⟨c, h1, h2⟩ := ih
    obtain ⟨d, h3, h4⟩ := step_bwd hT hD hc hv hs h1 h2 hst
    exact ⟨d, .step h1 h3, h4⟩

end Verif.VectorDce
