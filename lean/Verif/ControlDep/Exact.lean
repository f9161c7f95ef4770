import Verif.ControlDep.Tree
set_option linter.unusedSimpArgs false
set_option linter.unusedVariables false
set_option linter.unusedSectionVars false
/-!
# The lists of dependences on a rooted graph
-/
namespace Verif.ControlDep
open Verif.Cfa Verif.Cfa.Spec Verif.DomTree Verif.DomTree.Spec

variable {B : Type} [DecidableEq B]

theorem count_lt {p q : B → Bool} : ∀ (l : List B), (∀ x, p x = true → q x = true) →
    ∀ x ∈ l, q x = true → p x = false → (l.filter p).length < (l.filter q).length := by
  intro l
  have hle : (∀ x, p x = true → q x = true) → ∀ l : List B,
      (l.filter p).length ≤ (l.filter q).length := by
    intro h l
    induction l with
    | nil => simp
    | cons a l ih =>
      by_cases hp : p a = true
      · simp [hp, h a hp, ih]
      · by_cases hq : q a = true
        · simp [hp, hq]
          omega
        · simp [hp, hq, ih]
  induction l with
  | nil => intro _ x hx; simp at hx
  | cons a l ih =>
    intro h x hx hq hp
    rcases List.mem_cons.1 hx with rfl | hx
    · have := hle h l
      simp [hp, hq]
      omega
    · have := ih h x hx hq hp
      by_cases hpa : p a = true
      · simp [hpa, h a hpa, this]
      · by_cases hqa : q a = true
        · simp [hpa, hqa]
          omega
        · simp [hpa, hqa, this]

variable {E : B → B → Prop} {root : B} {t : Tree B}

theorem Shape.dom_antisymm' (hS : Shape E root t) {a b : B} (h1 : t.dominates a b = true)
    (h2 : t.dominates b a = true) : a = b := by
  obtain ⟨ra, rb, d1⟩ := (hS.ans.dominates a b).1 h1
  obtain ⟨_, _, d2⟩ := (hS.ans.dominates b a).1 h2
  exact Verif.Cfa.dom_antisymm ra d1 d2

theorem Shape.dom_trans' (hS : Shape E root t) {a b c : B} (h1 : t.dominates a b = true)
    (h2 : t.dominates b c = true) : t.dominates a c = true := by
  obtain ⟨ra, rb, d1⟩ := (hS.ans.dominates a b).1 h1
  obtain ⟨_, rc, d2⟩ := (hS.ans.dominates b c).1 h2
  exact (hS.ans.dominates a c).2 ⟨ra, rc, dom_trans d1 d2⟩

theorem Shape.dom_self' (hS : Shape E root t) {a : B} (h : Reach E root a) :
    t.dominates a a = true := (hS.ans.dominates a a).2 ⟨h, h, dom_self _ _ _⟩

theorem Shape.kid_dom (hS : Shape E root t) {a c : B} (h : c ∈ t.children a) :
    t.dominates a c = true ∧ a ≠ c ∧ Reach E root a ∧ Reach E root c := by
  obtain ⟨rc, hne, hi⟩ := (hS.kids.iff a c).1 h
  have ra := dom_reach rc hi.2.1
  exact ⟨(hS.ans.dominates a c).2 ⟨ra, rc, hi.2.1⟩, hi.1, ra, rc⟩

/-- The tree has a post-order. -/
theorem Shape.posts [Blocks B] (hS : Shape E root t) : ∀ (n : Nat) (u : B), Reach E root u →
    ((Blocks.all (B := B)).filter (t.dominates u)).length ≤ n →
    ∃ l, Posts t.children (t.children u) l := by
  intro n
  induction n with
  | zero =>
    intro u hu hn
    have : u ∈ (Blocks.all (B := B)).filter (t.dominates u) :=
      List.mem_filter.2 ⟨Blocks.complete u, hS.dom_self' hu⟩
    have h0 : (Blocks.all (B := B)).filter (t.dominates u) = [] :=
      List.eq_nil_of_length_eq_zero (Nat.le_zero.1 hn)
    rw [h0] at this
    simp at this
  | succ n ih =>
    intro u hu hn
    have : ∀ cs : List B, (∀ c ∈ cs, c ∈ t.children u) → ∃ l, Posts t.children cs l := by
      intro cs
      induction cs with
      | nil => intro _; exact ⟨[], .nil⟩
      | cons c cs ihc =>
        intro h
        obtain ⟨l2, h2⟩ := ihc (fun x hx => h x (by simp [hx]))
        obtain ⟨k1, k2, k3, k4⟩ := hS.kid_dom (h c (by simp))
        have hlt := count_lt (p := t.dominates c) (q := t.dominates u) (Blocks.all (B := B))
          (fun x hx => hS.dom_trans' k1 hx) u (Blocks.complete u) (hS.dom_self' hu)
          (by
            cases hc : t.dominates c u with
            | false => rfl
            | true => exact absurd (hS.dom_antisymm' k1 hc) k2)
        obtain ⟨l1, h1⟩ := ih c k4 (by omega)
        exact ⟨_, .cons h1 h2⟩
    exact this _ (fun _ h => h)

/-- The order of the nodes, for enough steps. -/
theorem Shape.order [Blocks B] (hS : Shape E root t) :
    ∃ l N, (∀ n, N ≤ n → postIter t.children root n (.enter root) [] = some l) ∧
      (∀ x, x ∈ l ↔ Reach E root x ∧ x ≠ root) ∧
      ∀ pre x post, l = pre ++ x :: post → ∀ y ∈ t.children x, y ∈ pre := by
  obtain ⟨l, hl⟩ := hS.posts _ root (.refl _) (Nat.le_refl _)
  have hm := posts_mem hl
  have hroot : ∀ x ∈ l, Reach E root x ∧ x ≠ root := by
    intro x hx
    obtain ⟨c, hc, hr⟩ := hm.2.2 x hx
    obtain ⟨rc, hne, -⟩ := (hS.kids.iff root c).1 hc
    cases hr with
    | refl => exact ⟨rc, hne⟩
    | tail _ he =>
      obtain ⟨rx, hx', -⟩ := (hS.kids.iff _ x).1 he
      exact ⟨rx, hx'⟩
  obtain ⟨N, hN⟩ := iter_root hl (fun h => (hroot root h).2 rfl)
  refine ⟨l, N, hN, fun x => ⟨hroot x, ?_⟩, posts_order hl⟩
  rintro ⟨hx, hne⟩
  have hr := (hS.kids.anc_iff hx).2 (root_dom E root x)
  have : x = root ∨ x ∈ l := by
    induction hr with
    | refl => exact Or.inl rfl
    | @tail b c _ he ih =>
      obtain ⟨_, _, hi⟩ := (hS.kids.iff b c).1 he
      have hb := dom_reach hx hi.2.1
      by_cases hbr : b = root
      · rw [hbr] at he
        exact Or.inr (hm.1 c he)
      · rcases ih hb hbr with h | h
        · exact absurd h hbr
        · exact Or.inr (hm.2.1 b h c he)
  exact this.resolve_left hne

/-! ### The frontiers -/

/-- What the list of `a` is to have. -/
def Want (f : Func B) (t : Tree B) (entry a : B) (d : Dep B) : Prop :=
  d.target = a ∧ t.dominates a d.through = true ∧
    match d.source with
    | some s => s ∈ preds f d.through ∧ t.strictlyDominates a s = false
    | none => d.through = entry

theorem get_set (R : DepMap B) (b x : Option B) (l : List (Dep B)) :
    (R.set b l).get x = if x = b then l else R.get x := by
  unfold DepMap.get DepMap.set
  split <;> rfl

theorem mem_localDeps {f : Func B} {a : B} {d : Dep B} :
    d ∈ localDeps f t a ↔ ∃ p ∈ preds f a, t.strictlyDominates a p = false ∧ d = ⟨some p, a, a⟩ := by
  simp only [localDeps, List.mem_map, List.mem_filter, Bool.not_eq_true', and_assoc]
  constructor
  · rintro ⟨p, h1, h2, h3⟩
    exact ⟨p, h1, h2, h3.symm⟩
  · rintro ⟨p, h1, h2, h3⟩
    exact ⟨p, h1, h2, h3.symm⟩

theorem mem_upDeps {R : DepMap B} {a : B} {d : Dep B} :
    d ∈ upDeps t R a ↔ ∃ c ∈ t.children a, ∃ e ∈ R.get (some c), keepUp t a e = true ∧
      d = ⟨e.source, a, e.through⟩ := by
  simp only [upDeps, List.mem_flatMap, List.mem_map, List.mem_filter, and_assoc]
  constructor
  · rintro ⟨c, hc, e, h1, h2, h3⟩
    exact ⟨c, hc, e, h1, h2, h3.symm⟩
  · rintro ⟨c, hc, e, h1, h2, h3⟩
    exact ⟨c, hc, e, h1, h2, h3.symm⟩

/-- Nothing else is put in a list. -/
theorem frontier_sound (hS : Shape E root t) {f : Func B} {entry : B} {R : DepMap B} {a : B}
    (ha : Reach E root a) (h : ∀ x, ∀ d ∈ R.get (some x), Want f t entry x d) :
    ∀ x, ∀ d ∈ (frontier f t entry R a).get (some x), Want f t entry x d := by
  intro x d hd
  unfold frontier at hd
  rw [get_set] at hd
  split at hd
  · rename_i hx
    cases hx
    simp only [List.mem_append] at hd
    rcases hd with ((hd | hd) | hd) | hd
    · exact h _ d hd
    · obtain ⟨p, h1, h2, rfl⟩ := mem_localDeps.1 hd
      exact ⟨rfl, hS.dom_self' ha, h1, h2⟩
    · unfold entryDeps at hd
      split at hd
      · rename_i he
        simp at hd
        rw [hd]
        exact ⟨rfl, hS.dom_self' ha, he⟩
      · simp at hd
    · obtain ⟨c, hc, e, h1, h2, rfl⟩ := mem_upDeps.1 hd
      obtain ⟨w1, w2, w3⟩ := h c e h1
      obtain ⟨k1, -⟩ := hS.kid_dom hc
      refine ⟨rfl, hS.dom_trans' k1 w2, ?_⟩
      unfold keepUp at h2
      cases hs : e.source with
      | none =>
        rw [hs] at w3
        exact w3
      | some s =>
        rw [hs] at w3 h2
        exact ⟨w3.1, by simpa using h2⟩
  · exact h x d hd

/-- With the lists of the children complete, the list of a node becomes complete. -/
theorem frontier_complete (hS : Shape E root t) {f : Func B} {entry : B} {R : DepMap B} {a : B}
    (ha : Reach E root a)
    (h : ∀ c ∈ t.children a, ∀ d, Want f t entry c d → d ∈ R.get (some c)) :
    ∀ d, Want f t entry a d → d ∈ (frontier f t entry R a).get (some a) := by
  intro d hd
  obtain ⟨src, tgt, v⟩ := d
  obtain ⟨w1, w2, w3⟩ := hd
  simp only at w1 w2 w3
  subst w1
  unfold frontier
  rw [get_set, if_pos rfl]
  simp only [List.mem_append]
  by_cases hv : tgt = v
  · subst hv
    cases src with
    | none =>
      simp only at w3
      exact Or.inl (Or.inr (by simp [entryDeps, w3]))
    | some s =>
      exact Or.inl (Or.inl (Or.inr (mem_localDeps.2 ⟨s, w3.1, w3.2, rfl⟩)))
  · right
    -- the child on the way to `v`
    obtain ⟨_, rv, dv⟩ := (hS.ans.dominates tgt v).1 w2
    have hr := (hS.kids.anc_iff rv).2 dv
    obtain ⟨c, hc, hcv⟩ : ∃ c ∈ t.children tgt, Reach (fun x y => y ∈ t.children x) c v := by
      clear dv w2 w3 rv
      induction hr with
      | refl => exact absurd rfl hv
      | @tail b c hb he ih =>
        by_cases hab : tgt = b
        · rw [← hab] at he
          exact ⟨c, he, .refl _⟩
        · obtain ⟨k, hk, hkb⟩ := ih hab
          exact ⟨k, hk, .tail hkb he⟩
    obtain ⟨k1, k2, k3, k4⟩ := hS.kid_dom hc
    have hcd : t.dominates c v = true :=
      (hS.ans.dominates c v).2 ⟨k4, rv, (hS.kids.anc_iff rv).1 hcv⟩
    refine mem_upDeps.2 ⟨c, hc, ⟨src, c, v⟩, h c hc _ ⟨rfl, hcd, ?_⟩, ?_, rfl⟩
    · cases src with
      | none => exact w3
      | some s =>
        refine ⟨w3.1, ?_⟩
        cases hcs : t.strictlyDominates c s with
        | false => rfl
        | true =>
          exfalso
          unfold Tree.strictlyDominates at hcs
          split at hcs
          · exact absurd hcs (by simp)
          · have hts := hS.dom_trans' k1 hcs
            have hne : tgt ≠ s := by
              intro e
              rw [← e] at hcs
              exact k2 (hS.dom_antisymm' k1 hcs)
            have := w3.2
            unfold Tree.strictlyDominates at this
            rw [if_neg hne, hts] at this
            exact absurd this (by simp)
    · unfold keepUp
      cases src with
      | none => rfl
      | some s => simp [w3.2]

theorem frontier_mono {f : Func B} {entry : B} {R : DepMap B} {a : B} (x : Option B) {d : Dep B}
    (h : d ∈ R.get x) : d ∈ (frontier f t entry R a).get x := by
  unfold frontier
  rw [get_set]
  split
  · rename_i e
    rw [e] at h
    simp [h]
  · exact h

theorem frontiers_mono {f : Func B} {entry : B} : ∀ (l : List B) {R : DepMap B} (x : Option B)
    {d : Dep B}, d ∈ R.get x → d ∈ (frontiers f t entry l R).get x := by
  intro l
  induction l with
  | nil => intro R x d h; exact h
  | cons a l ih => intro R x d h; exact ih x (frontier_mono x h)

/-- All lists are exact in the end. -/
theorem frontiers_exact (hS : Shape E root t) {f : Func B} {entry : B} (all : List B)
    (hall : ∀ x ∈ all, Reach E root x)
    (hord : ∀ pre x post, all = pre ++ x :: post → ∀ y ∈ t.children x, y ∈ pre) :
    ∀ (l pre : List B) {R : DepMap B}, all = pre ++ l →
      (∀ x, ∀ d ∈ R.get (some x), Want f t entry x d) →
      (∀ x ∈ pre, ∀ d, Want f t entry x d → d ∈ R.get (some x)) →
      (∀ x, ∀ d ∈ (frontiers f t entry l R).get (some x), Want f t entry x d) ∧
      ∀ x ∈ all, ∀ d, Want f t entry x d → d ∈ (frontiers f t entry l R).get (some x) := by
  intro l
  induction l with
  | nil =>
    intro pre R hl h1 h2
    rw [List.append_nil] at hl
    exact ⟨h1, fun x hx => h2 x (hl ▸ hx)⟩
  | cons a l ih =>
    intro pre R hl h1 h2
    have ha : Reach E root a := hall a (by rw [hl]; simp)
    refine ih (pre ++ [a]) (by simp [hl]) (frontier_sound hS ha h1) ?_
    intro x hx d hd
    rcases List.mem_append.1 hx with hx | hx
    · exact frontier_mono _ (h2 x hx d hd)
    · have hxa : x = a := by simpa using hx
      subst hxa
      exact frontier_complete hS ha (fun c hc d hd => h2 c (hord pre x l hl c hc) d hd) d hd

/-- Which labels have a list. -/
theorem frontiers_keys {f : Func B} {entry : B} : ∀ (l : List B) {R : DepMap B} (x : Option B),
    ((frontiers f t entry l R) x).isSome = true ↔ (R x).isSome = true ∨ ∃ b ∈ l, x = some b := by
  intro l
  induction l with
  | nil => intro R x; simp [frontiers]
  | cons a l ih =>
    intro R x
    rw [frontiers, ih]
    by_cases hx : x = some a
    · simp [frontier, DepMap.set, hx]
    · simp [frontier, DepMap.set, hx]

/-! ### The other direction -/

theorem forwardDeps_spec : ∀ (ds : List (Dep B)) (F : DepMap B),
    (∀ s, ((forwardDeps ds F) s).isSome = true ↔ (F s).isSome = true ∨ ∃ d ∈ ds, d.source = s) ∧
    ∀ s d, d ∈ (forwardDeps ds F).get s ↔ d ∈ F.get s ∨ d ∈ ds ∧ d.source = s := by
  intro ds
  induction ds with
  | nil => intro F; simp [forwardDeps]
  | cons e ds ih =>
    intro F
    obtain ⟨h1, h2⟩ := ih (F.set e.source (F.get e.source ++ [e]))
    refine ⟨?_, ?_⟩
    · intro s
      rw [forwardDeps, h1]
      by_cases hs : s = e.source
      · simp [DepMap.set, hs]
      · have : ¬ e.source = s := fun h => hs h.symm
        simp [DepMap.set, hs, this]
    · intro s d
      rw [forwardDeps, h2, get_set]
      by_cases hs : s = e.source
      · subst hs
        simp only [if_true, List.mem_append, List.mem_cons, List.not_mem_nil, or_false]
        constructor
        · rintro ((h | rfl) | h)
          · exact Or.inl h
          · exact Or.inr ⟨Or.inl rfl, rfl⟩
          · exact Or.inr ⟨Or.inr h.1, h.2⟩
        · rintro (h | ⟨rfl | h, h'⟩)
          · exact Or.inl (Or.inl h)
          · exact Or.inl (Or.inr rfl)
          · exact Or.inr ⟨h, h'⟩
      · rw [if_neg hs]
        simp only [List.mem_cons]
        constructor
        · rintro (h | ⟨h, h'⟩)
          · exact Or.inl h
          · exact Or.inr ⟨Or.inr h, h'⟩
        · rintro (h | ⟨rfl | h, h'⟩)
          · exact Or.inl h
          · exact absurd h'.symm hs
          · exact Or.inr ⟨h, h'⟩

theorem forward_spec (R : DepMap B) : ∀ (ks : List (Option B)) (F : DepMap B),
    (∀ s, ((forward R ks F) s).isSome = true ↔
      (F s).isSome = true ∨ s ∈ ks ∨ ∃ k ∈ ks, ∃ d ∈ R.get k, d.source = s) ∧
    ∀ s d, d ∈ (forward R ks F).get s ↔ d ∈ F.get s ∨ (∃ k ∈ ks, d ∈ R.get k) ∧ d.source = s := by
  intro ks
  induction ks with
  | nil => intro F; simp [forward]
  | cons k ks ih =>
    intro F
    obtain ⟨h1, h2⟩ := ih (forwardDeps (R.get k) (touch F k))
    obtain ⟨g1, g2⟩ := forwardDeps_spec (R.get k) (touch F k)
    have t1 : ∀ s, ((touch F k) s).isSome = true ↔ (F s).isSome = true ∨ s = k := by
      intro s
      by_cases hs : s = k <;> simp [touch, DepMap.set, hs]
    have t2 : ∀ s, (touch F k).get s = F.get s := by
      intro s
      unfold touch
      rw [get_set]
      split
      · rename_i e
        rw [e]
      · rfl
    refine ⟨?_, ?_⟩
    · intro s
      rw [forward, h1, g1, t1]
      simp only [List.mem_cons, exists_eq_or_imp]
      grind
    · intro s d
      rw [forward, h2, g2, t2]
      simp only [List.mem_cons, exists_eq_or_imp]
      grind

end Verif.ControlDep
