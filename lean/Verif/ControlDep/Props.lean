import Verif.ControlDep.Paths
/-!
# C76: the control dependence graph

`Flow`, `Exit`, `CanExit`, `PostDominates` and `Path` are about the function's own graph
(`Verif.DomTree.Graph`, `Verif.Cfa.Spec`), `Decides` and `Dependent` are in
`Verif.ControlDep.Spec`.
-/
set_option linter.unusedSimpArgs false
set_option linter.unusedVariables false
namespace Verif.ControlDep
open Verif.Cfa Verif.Cfa.Spec Verif.DomTree Verif.DomTree.Spec Spec

variable {B : Type} [DecidableEq B] [Blocks B]

/-- **C76.** For each function with an exit, from the post-dominator tree the analysis gives,
without undefined behaviour:
- for each block the branches which decide that it is visited, and nothing else,
- an entry dependence for the blocks which are certain to be visited,
- for each block the same dependences seen from the branch,
- `HasBlock` for the blocks from which an exit can be reached,
- `IsDependent` as control dependence is defined. -/
theorem graph_exact (f : Func B) (ph e : B) (rest : List B) (hb : f.blocks = e :: rest)
    (wf : WellFormed f ph) (hx : ∃ x, Exit f x) :
    ∃ F, ∀ fuel, F ≤ fuel → ∃ t, initializeTree fuel f ph true = some t ∧
      ∃ N, ∀ n, N ≤ n → ∃ g, compute n f t = .ok g ∧
        (∀ a ∈ f.blocks, ∀ d ∈ g.rev.get (some a), d.target = a) ∧
        (∀ a ∈ f.blocks, ∀ s v, ⟨some s, a, v⟩ ∈ g.rev.get (some a) ↔ Decides f s a v) ∧
        (∀ a ∈ f.blocks, ∀ v, ⟨none, a, v⟩ ∈ g.rev.get (some a) ↔
          v = e ∧ CanExit f e ∧ PostDominates f a e) ∧
        (∀ s a v, ⟨some s, a, v⟩ ∈ g.fwd.get (some s) ↔ Decides f s a v) ∧
        (∀ a v, ⟨none, a, v⟩ ∈ g.fwd.get none ↔ v = e ∧ CanExit f e ∧ PostDominates f a e) ∧
        (∀ s, ∀ d ∈ g.fwd.get s, d.source = s) ∧
        (∀ b ∈ f.blocks, g.hasBlock (some b) = true ↔ CanExit f b) ∧
        (∀ a ∈ f.blocks, ∀ s, g.isDependent (some a) (some s) = true ↔ Dependent f a s) ∧
        (∀ a ∈ f.blocks, g.isDependent (some a) none = true ↔
          CanExit f e ∧ PostDominates f a e) := by
  have hne : f.blocks ≠ [] := by rw [hb]; simp
  have he : e ∈ f.blocks := by rw [hb]; simp
  obtain ⟨m, F1, hs, hF1⟩ := pdom_shape f ph hne wf
  obtain ⟨F2, hF2⟩ := postdominator_tree_exact f ph hne wf
  refine ⟨max F1 F2, fun fuel hfuel => ?_⟩
  obtain ⟨t, ht, hS⟩ := hF1 fuel (by omega)
  obtain ⟨t', ht', hreach, hdom, hsdom, -⟩ := hF2 fuel (by omega)
  rw [ht] at ht'
  cases ht'
  refine ⟨t, ht, ?_⟩
  obtain ⟨l, N, hN, hl, hord⟩ := hS.order
  have hlB : ∀ x, x ∈ l ↔ x ∈ f.blocks ∧ CanExit f x := by
    intro x
    rw [hl, ← hS.ans.reachable]
    constructor
    · rintro ⟨h1, h2⟩
      have hxB : x ∈ f.blocks := by
        have := (hS.ans.reachable x).1 h1
        cases this with
        | refl => exact absurd rfl h2
        | tail _ hedge =>
          rcases (hs _ _).1 hedge with ⟨_, h⟩ | h
          · exact h.1
          · exact h.1
      exact ⟨hxB, (hreach x hxB).1 h1⟩
    · rintro ⟨h1, h2⟩
      exact ⟨(hreach x h1).2 h2, fun e => wf.pseudo (e ▸ h1)⟩
  refine ⟨N, fun n hn => ?_⟩
  have hit := hN n hn
  have hlne : l ≠ [] := by
    obtain ⟨x, hx⟩ := hx
    intro e0
    have := (hlB x).2 ⟨hx.1, x, hx, .refl _⟩
    rw [e0] at this
    simp at this
  have hcomp : compute n f t = .ok
      ⟨frontiers f t e l (DepMap.set (fun _ => none) none []),
        forward (frontiers f t e l (DepMap.set (fun _ => none) none [])) (none :: l.map some)
          (fun _ => none)⟩ := by
    unfold compute
    rw [hS.roots, hb]
    simp only [hit]
    cases l with
    | nil => exact absurd rfl hlne
    | cons b bs => rfl
  refine ⟨_, hcomp, ?_⟩
  have h0 : ∀ x, (DepMap.set (fun _ => none) none [] : DepMap B).get x = [] := by
    intro x
    rw [get_set]
    split
    · rfl
    · rfl
  obtain ⟨hsound, hcompl⟩ := frontiers_exact hS (f := f) (entry := e) l
    (fun x hx => ((hl x).1 hx).1) hord l [] (R := DepMap.set (fun _ => none) none []) rfl
    (by intro x d hd; rw [h0] at hd; simp at hd) (by simp)
  have hkeys := fun x => frontiers_keys (f := f) (t := t) (entry := e) l
    (R := DepMap.set (fun _ => none) none []) x
  generalize hR : frontiers f t e l (DepMap.set (fun _ => none) none []) = R at *
  have hnone : R.get none = [] := by
    have : ∀ (l : List B) (R0 : DepMap B), (frontiers f t e l R0).get none = R0.get none := by
      intro l
      induction l with
      | nil => intro R0; rfl
      | cons b l ih =>
        intro R0
        rw [frontiers, ih]
        unfold frontier
        rw [get_set]
        simp
    rw [← hR, this, h0]
  have hout : ∀ x, x ∉ l → R.get (some x) = [] := by
    intro x hxl
    have := hkeys (some x)
    cases hv : R (some x) with
    | none => simp [DepMap.get, hv]
    | some v =>
      rw [hv] at this
      have h1 := this.1 rfl
      rcases h1 with h1 | ⟨b, hb', hbx⟩
      · simp [DepMap.set] at h1
      · cases hbx
        exact absurd hb' hxl
  -- what is wanted, in terms of paths
  have wsome : ∀ a, a ∈ f.blocks → ∀ s v, Want f t e a ⟨some s, a, v⟩ ↔ Decides f s a v := by
    intro a ha s v
    constructor
    · rintro ⟨-, h2, h3, h4⟩
      have hfl := mem_preds.1 h3
      have hv := wf.closed s v hfl
      obtain ⟨c1, c2, c3⟩ := (hdom a ha v hv).1 h2
      refine ⟨hfl, c2, c3, ?_⟩
      rintro ⟨k1, k2⟩
      have := (hsdom a ha s hfl.1).2 ⟨k1, c1, canExit_step hfl c2, k2⟩
      rw [this] at h4
      exact absurd h4 (by simp)
    · rintro ⟨h1, h2, h3, h4⟩
      have hv := wf.closed s v h1
      refine ⟨rfl, (hdom a ha v hv).2 ⟨canExit_sure h2 h3, h2, h3⟩, mem_preds.2 h1, ?_⟩
      cases hd : t.strictlyDominates a s with
      | false => rfl
      | true =>
        obtain ⟨k1, -, -, k2⟩ := (hsdom a ha s h1.1).1 hd
        exact absurd ⟨k1, k2⟩ h4
  have wnone : ∀ a, a ∈ f.blocks → ∀ v, Want f t e a ⟨none, a, v⟩ ↔
      v = e ∧ CanExit f e ∧ PostDominates f a e := by
    intro a ha v
    constructor
    · rintro ⟨-, h2, h3⟩
      have h3 : v = e := h3
      subst h3
      obtain ⟨c1, c2, c3⟩ := (hdom a ha v he).1 h2
      exact ⟨rfl, c2, c3⟩
    · rintro ⟨rfl, h2, h3⟩
      exact ⟨rfl, (hdom a ha v he).2 ⟨canExit_sure h2 h3, h2, h3⟩, rfl⟩
  have revs : ∀ a ∈ f.blocks, ∀ s v, ⟨some s, a, v⟩ ∈ R.get (some a) ↔ Decides f s a v := by
    intro a ha s v
    rw [← wsome a ha]
    constructor
    · exact hsound a _
    · intro h
      have hd := (wsome a ha s v).1 h
      exact hcompl a ((hlB a).2 ⟨ha, canExit_sure hd.exit hd.sure⟩) _ h
  have revn : ∀ a ∈ f.blocks, ∀ v, ⟨none, a, v⟩ ∈ R.get (some a) ↔
      v = e ∧ CanExit f e ∧ PostDominates f a e := by
    intro a ha v
    rw [← wnone a ha]
    constructor
    · exact hsound a _
    · intro h
      have hd := (wnone a ha v).1 h
      exact hcompl a ((hlB a).2 ⟨ha, canExit_sure hd.2.1 hd.2.2⟩) _ h
  have sureB : ∀ a v, CanExit f v → PostDominates f a v → v ∈ f.blocks → a ∈ f.blocks := by
    intro a v hc hp hv
    obtain ⟨x, hx, hr⟩ := hc
    obtain ⟨p, hp'⟩ := reach_path hr
    have := path_reach hp' a (hp x p hx hp')
    cases this with
    | refl => exact hv
    | tail _ h => exact wf.closed _ _ h
  obtain ⟨fk, fm⟩ := forward_spec R (none :: l.map some) (fun _ => none)
  have fget : ∀ s d, d ∈ (forward R (none :: l.map some) (fun _ => none)).get s ↔
      (∃ a ∈ l, d ∈ R.get (some a)) ∧ d.source = s := by
    intro s d
    rw [fm]
    have : d ∉ (DepMap.get (fun _ => none : DepMap B) s) := by simp [DepMap.get]
    simp only [this, false_or, List.mem_cons, List.mem_map, exists_eq_or_imp, hnone,
      List.not_mem_nil]
    constructor
    · rintro ⟨⟨k, ⟨a, ha, rfl⟩, hk⟩, h2⟩
      exact ⟨⟨a, ha, hk⟩, h2⟩
    · rintro ⟨⟨a, ha, hk⟩, h2⟩
      exact ⟨⟨some a, ⟨a, ha, rfl⟩, hk⟩, h2⟩
  have has : ∀ b ∈ f.blocks,
      ((forward R (none :: l.map some) (fun _ => none)) (some b)).isSome = true ↔ CanExit f b := by
    intro b hb'
    rw [fk]
    constructor
    · rintro (h | h | ⟨k, hk, d, hd, hsd⟩)
      · simp at h
      · have : b ∈ l := by simpa using h
        exact ((hlB b).1 this).2
      · rcases List.mem_cons.1 hk with rfl | hk
        · rw [hnone] at hd
          simp at hd
        · obtain ⟨a, ha, rfl⟩ := List.mem_map.1 hk
          have w := hsound a d hd
          obtain ⟨src, tgt, v⟩ := d
          have hsd : src = some b := hsd
          subst hsd
          have ht' : tgt = a := w.1
          subst ht'
          have := (wsome tgt ((hlB tgt).1 ha).1 b v).1 w
          exact canExit_step this.edge this.exit
    · intro h
      have : b ∈ l := (hlB b).2 ⟨hb', h⟩
      exact Or.inr (Or.inl (by simp [this]))
  refine ⟨fun a ha d hd => (hsound a d hd).1, revs, revn, ?_, ?_, ?_, has, ?_, ?_⟩
  · intro s a v
    rw [fget]
    constructor
    · rintro ⟨⟨b, hbl, hd⟩, -⟩
      have hba : a = b := (hsound b _ hd).1
      subst hba
      exact (revs a ((hlB a).1 hbl).1 s v).1 hd
    · intro h
      have ha := sureB a v h.exit h.sure (wf.closed s v h.edge)
      exact ⟨⟨a, (hlB a).2 ⟨ha, canExit_sure h.exit h.sure⟩, (revs a ha s v).2 h⟩, rfl⟩
  · intro a v
    rw [fget]
    constructor
    · rintro ⟨⟨b, hbl, hd⟩, -⟩
      have hba : a = b := (hsound b _ hd).1
      subst hba
      exact (revn a ((hlB a).1 hbl).1 v).1 hd
    · intro h
      have ha := sureB a e h.2.1 h.2.2 he
      exact ⟨⟨a, (hlB a).2 ⟨ha, canExit_sure h.2.1 h.2.2⟩, (revn a ha v).2 h⟩, rfl⟩
  · intro s d hd
    exact ((fget s d).1 hd).2
  · intro a ha s
    rw [dependent_iff]
    unfold Cdg.isDependent Cdg.hasBlock
    constructor
    · intro h
      split at h
      · exact absurd h (by simp)
      · obtain ⟨d, hd, hds⟩ := List.any_eq_true.1 h
        obtain ⟨src, tgt, v⟩ := d
        have h1 : src = some s := by simpa using hds
        have h2 : tgt = a := (hsound a _ hd).1
        subst h1 h2
        exact ⟨v, (revs _ ha s v).1 hd⟩
    · rintro ⟨v, h⟩
      have hce : CanExit f a := canExit_sure h.exit h.sure
      simp only [(has a ha).2 hce, Bool.not_true, Bool.false_eq_true, if_false]
      exact List.any_eq_true.2 ⟨_, (revs a ha s v).2 h, by simp⟩
  · intro a ha
    unfold Cdg.isDependent Cdg.hasBlock
    constructor
    · intro h
      split at h
      · exact absurd h (by simp)
      · obtain ⟨d, hd, hds⟩ := List.any_eq_true.1 h
        obtain ⟨src, tgt, v⟩ := d
        have h1 : src = none := by simpa using hds
        have h2 : tgt = a := (hsound a _ hd).1
        subst h1 h2
        exact ((revn _ ha v).1 hd).2
    · intro h
      have hce : CanExit f a := canExit_sure h.1 h.2
      simp only [(has a ha).2 hce, Bool.not_true, Bool.false_eq_true, if_false]
      exact List.any_eq_true.2 ⟨_, (revn a ha e).2 ⟨rfl, h⟩, by simp⟩

/-- Found: for a function from which there is no exit, the pseudo exit block is taken for a
block of the function, and its parent, a null pointer, is used. -/
theorem no_exit_crashes (f : Func B) (ph : B) (hne : f.blocks ≠ []) (wf : WellFormed f ph)
    (hx : ∀ x, ¬ Exit f x) :
    ∃ F, ∀ fuel, F ≤ fuel → ∃ t, initializeTree fuel f ph true = some t ∧
      ∃ N, ∀ n, N ≤ n → compute n f t = .crash := by
  obtain ⟨m, F1, hs, hF1⟩ := pdom_shape f ph hne wf
  refine ⟨F1, fun fuel hfuel => ?_⟩
  obtain ⟨t, ht, hS⟩ := hF1 fuel hfuel
  refine ⟨t, ht, ?_⟩
  obtain ⟨l, N, hN, hl, -⟩ := hS.order
  refine ⟨N, fun n hn => ?_⟩
  have hno : ∀ x, Reach (fun u v => v ∈ m.succ u) ph x → x = ph := by
    intro x hr
    induction hr with
    | refl => rfl
    | tail _ he ih =>
      rw [ih] at he
      rcases (hs _ _).1 he with ⟨_, h⟩ | h
      · exact absurd h (hx _)
      · exact absurd (wf.closed _ _ h) wf.pseudo
  have hnil : l = [] := by
    cases l with
    | nil => rfl
    | cons x l =>
      have := (hl x).1 (by simp)
      exact absurd (hno x this.1) this.2
  unfold compute
  rw [hS.roots]
  cases hb : f.blocks with
  | nil => exact absurd hb hne
  | cons e rest =>
    simp only [hN n hn, hnil]

/-! ### What a dependence means -/

omit [Blocks B] in
/-- From a branch a block depends on, there is a way to leave the function without visiting the
block (again). -/
theorem avoidable {f : Func B} {a s : B} (h : Dependent f a s) :
    ∃ x q, Exit f x ∧ Path (Flow f) s x (s :: q) ∧ a ∉ q := by
  obtain ⟨v, hv⟩ := dependent_iff.1 h
  by_cases ha : a = s
  · subst ha
    obtain ⟨x, hx, hr⟩ := canExit_step hv.edge hv.exit
    obtain ⟨p, hp⟩ := reach_path hr
    obtain ⟨q, h1, h2⟩ := path_once _ (Nat.le_refl _) hp
    exact ⟨x, q, hx, h1, h2⟩
  · have : ¬ PostDominates f a s := fun hp => hv.open_ ⟨ha, hp⟩
    simp only [PostDominates, Classical.not_forall] at this
    obtain ⟨x, p, hx, hp, hn⟩ := this
    rcases path_uncons hp with ⟨rfl, rfl⟩ | ⟨w, q, hw, rfl, hq⟩
    · exact ⟨s, [], hx, hp, by simp⟩
    · exact ⟨x, q, hx, hp, fun h => hn (by simp [h])⟩

omit [Blocks B] in
/-- A block which does not depend on a branch: whichever way the branch goes, the block is
certain to be visited, or whichever way it goes, it is not certain. -/
theorem independent {f : Func B} {a s v w : B} (h : ¬ Dependent f a s) (ha : a ≠ s)
    (hv : Flow f s v) (hw : Flow f s w) (cv : CanExit f v) (hp : PostDominates f a v) :
    PostDominates f a w := by
  have hs : PostDominates f a s := by
    refine Classical.byContradiction fun hn => h (dependent_iff.2 ⟨v, hv, cv, hp, ?_⟩)
    rintro ⟨_, h⟩
    exact hn h
  intro x p hx hpx
  have := hs x _ hx (path_cons hw hpx)
  rcases List.mem_cons.1 this with h | h
  · exact absurd h ha
  · exact h

/-! ### The hypotheses are met -/

theorem sample_wf : WellFormed sample 7 := ⟨by decide, by simp only [Flow]; decide, by decide⟩

/-- In the loop with a conditional, the branch 2 depends on the header 1. -/
theorem sample_dep : Dependent sample 2 1 := by
  have e : ∀ u v : Fin 8, u ∈ sample.blocks → v ∈ sample.succs u → Flow sample u v :=
    fun _ _ a b => ⟨a, b⟩
  refine ⟨?_, 2, [2], e _ _ (by decide) (by decide), ?_, .single 2, ?_⟩
  · rintro ⟨-, h⟩
    have p : Path (Flow sample) 1 5 [1, 3, 4, 5] :=
      .snoc (p := [1, 3, 4]) (.snoc (p := [1, 3]) (.snoc (p := [1]) (.single 1)
        (e _ _ (by decide) (by decide))) (e _ _ (by decide) (by decide)))
        (e _ _ (by decide) (by decide))
    have := h 5 _ ⟨by decide, by decide⟩ p
    revert this
    decide
  · exact ⟨5, ⟨by decide, by decide⟩, .tail (.tail (.refl _) (e 2 4 (by decide) (by decide)))
      (e 4 5 (by decide) (by decide))⟩
  · intro x hx
    simp at hx
    subst hx
    intro x p _ hp
    exact path_head hp

example : ∃ F, ∀ fuel, F ≤ fuel → ∃ t, initializeTree fuel sample 7 true = some t ∧
    ∃ N, ∀ n, N ≤ n → ∃ g, compute n sample t = .ok g ∧
      g.isDependent (some 2) (some 1) = true ∧ g.isDependent (some 5) (some 1) = false := by
  obtain ⟨F, hF⟩ := graph_exact sample 7 0 [1, 2, 3, 4, 5, 6] rfl sample_wf ⟨5, by decide, by decide⟩
  refine ⟨F, fun fuel hf => ?_⟩
  obtain ⟨t, ht, N, hN⟩ := hF fuel hf
  refine ⟨t, ht, N, fun n hn => ?_⟩
  obtain ⟨g, hg, -, -, -, -, -, -, -, hd, -⟩ := hN n hn
  refine ⟨g, hg, (hd 2 (by decide) 1).2 sample_dep, ?_⟩
  rw [Bool.eq_false_iff]
  intro h
  have := ((hd 5 (by decide) 1).1 h).1
  refine this ⟨by decide, ?_⟩
  intro x p hx hp
  have h5 : ∀ y : Fin 8, y ∈ sample.blocks → sample.branches y = false → y = 5 := by decide
  have := h5 x hx.1 hx.2
  subst this
  exact path_last hp

/-- Two blocks that branch to each other. -/
def spin : Func (Fin 3) where
  blocks := [0, 1]
  branches := fun _ => true
  succs := fun | 0 => [1] | 1 => [0] | _ => []

example : ∃ F, ∀ fuel, F ≤ fuel → ∃ t, initializeTree fuel spin 2 true = some t ∧
    ∃ N, ∀ n, N ≤ n → compute n spin t = .crash :=
  no_exit_crashes spin 2 (by decide)
    ⟨by decide, by simp only [Flow]; decide, by decide⟩ (fun x h => absurd h.2 (by simp [spin]))

end Verif.ControlDep
