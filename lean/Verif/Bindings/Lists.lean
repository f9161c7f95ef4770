import Verif.Bindings.Spec
/-!
# The lists of variables
-/
set_option linter.unusedSimpArgs false
set_option linter.unusedVariables false
namespace Verif.Bindings
open Spec

theorem less_iff (x y : Var) : less Var.first x y = true ↔ Before x y := by
  unfold less Before Sampler
  split
  · rename_i h; simp [h]
  split
  · rename_i h1 h2; simp; omega
  have e : x.first = y.first := by omega
  split
  · rename_i h; simp [e, h]
  split
  · rename_i h1 h2
    simp only [e, Nat.lt_irrefl, false_or, true_and, h2, not_true, false_and, true_iff]
    have : ¬ unwrap y.ty = samplerOp := fun h => h1 (h2.trans h.symm)
    simp [this]
  split
  · rename_i h1 h2 h3; simp [e, h2, h3]
  · rename_i h1 h2 h3; simp [e, h2, h3]

theorem Spec.Before.irrefl (x : Var) : ¬ Before x x := by
  unfold Before
  intro h
  rcases h with h | ⟨_, ⟨h1, h2⟩ | ⟨_, h⟩⟩
  · omega
  · exact h1 h2
  · omega

theorem Spec.Before.trans {x y z : Var} (h1 : Before x y) (h2 : Before y z) : Before x z := by
  unfold Before at *
  by_cases a : Sampler x <;> by_cases b : Sampler y <;> by_cases c : Sampler z <;>
    simp [a, b, c] at * <;> omega

theorem Spec.Before.total {x y : Var} (h : x.id ≠ y.id) : Before x y ∨ Before y x := by
  unfold Before
  by_cases a : Sampler x <;> by_cases b : Sampler y <;> simp [a, b] <;> omega

theorem scan_vars {ds : List Decl} {v : Var} (h : v ∈ getVars ds) : ∃ d ∈ ds, d.id = v.id := by
  unfold getVars at h
  obtain ⟨d, hd, h⟩ := List.mem_filterMap.1 h
  split at h
  · simp at h; exact ⟨d, hd, by rw [← h]⟩
  · simp at h

theorem getVars_ids {ds : List Decl} (h : ds.Pairwise fun x y => x.id ≠ y.id) :
    (getVars ds).Pairwise fun x y => x.id ≠ y.id := by
  induction ds with
  | nil => simp [getVars]
  | cons d ds ih =>
    obtain ⟨h1, h2⟩ := List.pairwise_cons.1 h
    have ih := ih h2
    have key : getVars (d :: ds) = getVars ds ∨ ∃ v : Var, v.id = d.id ∧
        getVars (d :: ds) = v :: getVars ds := by
      unfold getVars
      rw [List.filterMap_cons]
      split
      · exact .inl rfl
      · rename_i v hv
        refine .inr ⟨v, ?_, rfl⟩
        split at hv
        · simp at hv; rw [← hv]
        · simp at hv
    rcases key with h | ⟨v, hv, h⟩
    · rw [h]; exact ih
    · rw [h]
      refine List.pairwise_cons.2 ⟨?_, ih⟩
      intro w hw
      obtain ⟨d', hd', he⟩ := scan_vars hw
      have := h1 d' hd'
      omega

/-- Distinct variables have distinct ids. -/
def Distinct (A : List Var) : Prop := ∀ x ∈ A, ∀ y ∈ A, x.id = y.id → x = y

theorem distinct_of {A : List Var} (h : A.Pairwise fun x y => x.id ≠ y.id) : Distinct A := by
  induction A with
  | nil => intro x hx; cases hx
  | cons a A ih =>
    obtain ⟨h1, h2⟩ := List.pairwise_cons.1 h
    intro x hx y hy he
    rcases List.mem_cons.1 hx with kx | kx <;> rcases List.mem_cons.1 hy with ky | ky
    · rw [kx, ky]
    · subst kx; exact absurd he (h1 y ky)
    · subst ky; exact absurd he.symm (h1 x kx)
    · exact ih h2 x kx y ky he

/-- Strictly ordered. -/
abbrev Sorted (l : List Var) : Prop := l.Pairwise Before

theorem mem_insertSorted {lt} {x z : Var} {l : List Var} :
    z ∈ insertSorted lt x l ↔ z = x ∨ z ∈ l := by
  induction l with
  | nil => simp [insertSorted]
  | cons y l ih =>
    unfold insertSorted
    split
    · simp only [List.mem_cons, ih]; grind
    · simp

theorem mem_stableSort {lt} {z : Var} {l : List Var} : z ∈ stableSort lt l ↔ z ∈ l := by
  induction l with
  | nil => simp [stableSort]
  | cons y l ih => simp [stableSort, mem_insertSorted, ih]

theorem insertSorted_sorted {A : List Var} (hA : Distinct A) {x : Var} {l : List Var} (hx : x ∈ A)
    (hl : ∀ y ∈ l, y ∈ A) (hn : x ∉ l) (hs : Sorted l) :
    Sorted (insertSorted (less Var.first) x l) := by
  induction l with
  | nil => simp [insertSorted]
  | cons y l ih =>
    obtain ⟨h1, h2⟩ := List.pairwise_cons.1 hs
    unfold insertSorted
    split
    · rename_i h
      have h := (less_iff _ _).1 h
      refine List.pairwise_cons.2 ⟨?_, ih (fun z hz => hl z (by simp [hz])) (fun hz => hn (by simp [hz])) h2⟩
      intro z hz
      rcases mem_insertSorted.1 hz with rfl | hz
      · exact h
      · exact h1 z hz
    · rename_i h
      have hne : x.id ≠ y.id := fun he => hn (by simp [hA x hx y (hl y (by simp)) he])
      have hb : Before x y := by
        rcases Before.total hne with hb | hb
        · exact hb
        · exact absurd ((less_iff _ _).2 hb) h
      refine List.pairwise_cons.2 ⟨?_, hs⟩
      intro z hz
      rcases List.mem_cons.1 hz with rfl | hz
      · exact hb
      · exact hb.trans (h1 z hz)

theorem stableSort_sorted {A : List Var} (hA : Distinct A) {l : List Var} (hl : ∀ y ∈ l, y ∈ A)
    (hn : l.Nodup) : Sorted (stableSort (less Var.first) l) := by
  induction l with
  | nil => simp [stableSort]
  | cons y l ih =>
    obtain ⟨h1, h2⟩ := List.nodup_cons.1 hn
    exact insertSorted_sorted hA (hl y (by simp)) (fun z hz => hl z (by simp [mem_stableSort.1 hz]))
      (fun h => h1 (mem_stableSort.1 h)) (ih (fun z hz => hl z (by simp [hz])) h2)

/-- Ordered, with repetitions. -/
def Weak (x y : Var) : Prop := x = y ∨ Before x y

theorem Weak.trans {x y z : Var} (h1 : Weak x y) (h2 : Weak y z) : Weak x z := by
  rcases h1 with rfl | h1
  · exact h2
  · rcases h2 with rfl | h2
    · exact .inr h1
    · exact .inr (h1.trans h2)

theorem mem_mergeBy {lt} {z : Var} {a b : List Var} : z ∈ mergeBy lt a b ↔ z ∈ a ∨ z ∈ b := by
  induction a generalizing b with
  | nil => simp [mergeBy]
  | cons x xs ih =>
    unfold mergeBy
    induction b with
    | nil => simp [mergeRow, ih]
    | cons y ys ihy =>
      unfold mergeRow
      split
      · simp only [List.mem_cons, ihy]; grind
      · simp only [List.mem_cons, ih]; grind

theorem mergeBy_weak {A : List Var} (hA : Distinct A) {a b : List Var} (ha : ∀ x ∈ a, x ∈ A)
    (hb : ∀ x ∈ b, x ∈ A) (sa : a.Pairwise Weak) (sb : b.Pairwise Weak) :
    (mergeBy (less Var.first) a b).Pairwise Weak := by
  induction a generalizing b with
  | nil => exact sb
  | cons x xs ih =>
    obtain ⟨h1, h2⟩ := List.pairwise_cons.1 sa
    have ih := fun {b} => ih (b := b) (fun z hz => ha z (by simp [hz]))
    induction b with
    | nil =>
      show (x :: mergeBy _ xs []).Pairwise Weak
      refine List.pairwise_cons.2 ⟨?_, ih (by simp) h2 (by simp)⟩
      intro z hz
      rcases mem_mergeBy.1 hz with hz | hz
      · exact h1 z hz
      · simp at hz
    | cons y ys ihy =>
      obtain ⟨k1, k2⟩ := List.pairwise_cons.1 sb
      have ihy := ihy (fun z hz => hb z (by simp [hz])) k2
      show (if less Var.first y x then y :: mergeBy _ (x :: xs) ys
        else x :: mergeBy _ xs (y :: ys)).Pairwise Weak
      split
      · rename_i h
        refine List.pairwise_cons.2 ⟨?_, ihy⟩
        intro z hz
        have hyx : Weak y x := .inr ((less_iff _ _).1 h)
        rcases mem_mergeBy.1 hz with hz | hz
        · rcases List.mem_cons.1 hz with rfl | hz
          · exact hyx
          · exact hyx.trans (h1 z hz)
        · exact k1 z hz
      · rename_i h
        refine List.pairwise_cons.2 ⟨?_, ih hb h2 sb⟩
        intro z hz
        have hxy : Weak x y := by
          by_cases he : x.id = y.id
          · exact .inl (hA x (ha x (by simp)) y (hb y (by simp)) he)
          · rcases Before.total he with h' | h'
            · exact .inr h'
            · exact absurd ((less_iff _ _).2 h') h
        rcases mem_mergeBy.1 hz with hz | hz
        · exact h1 z hz
        · rcases List.mem_cons.1 hz with rfl | hz
          · exact hxy
          · exact hxy.trans (k1 z hz)

theorem mem_unique {z : Var} {l : List Var} : z ∈ unique l ↔ z ∈ l := by
  fun_induction unique l with
  | case1 x l ih => rw [ih]; simp
  | case2 x y l h ih => simp only [List.mem_cons, ih]
  | case3 l h => rfl

theorem unique_sorted {l : List Var} (h : l.Pairwise Weak) : Sorted (unique l) := by
  fun_induction unique l with
  | case1 x l ih => exact ih (List.pairwise_cons.1 h).2
  | case2 x y l hne ih =>
    obtain ⟨h1, h2⟩ := List.pairwise_cons.1 h
    refine List.pairwise_cons.2 ⟨?_, ih h2⟩
    have hxy : Before x y := by
      rcases h1 y (by simp) with h | h
      · exact absurd h hne
      · exact h
    intro z hz
    rcases List.mem_cons.1 (mem_unique.1 hz) with rfl | hz
    · exact hxy
    · rcases (List.pairwise_cons.1 h2).1 z hz with rfl | h'
      · exact hxy
      · exact hxy.trans h'
  | case3 l hl =>
    match l, hl with
    | [], _ => simp
    | [x], _ => simp
    | x :: y :: l, hl => exact absurd rfl (hl x y l)

theorem mem_mergeInto {lt} {z : Var} {a b : List Var} :
    z ∈ mergeInto lt a b ↔ z ∈ a ∨ z ∈ b := by
  unfold mergeInto
  split
  · rename_i h; simp [h]
  · rw [mem_unique, mem_mergeBy]; grind

theorem mergeInto_sorted {A : List Var} (hA : Distinct A) {a b : List Var} (ha : ∀ x ∈ a, x ∈ A)
    (hb : ∀ x ∈ b, x ∈ A) (sa : Sorted a) (sb : Sorted b) :
    Sorted (mergeInto (less Var.first) a b) := by
  unfold mergeInto
  split
  · exact sa
  · exact unique_sorted (mergeBy_weak hA hb ha (sb.imp .inr) (sa.imp .inr))

/-! ### what functions use directly -/

theorem useOne_fold (v : Var) (us : List (Option Nat)) (t : Used) (seen : List Nat) (f s : Nat) :
    (us.foldl (useOne v) (t, seen)).1 f s =
      if s = v.set ∧ some f ∈ us ∧ f ∉ seen then t f s ++ [v] else t f s := by
  induction us generalizing t seen with
  | nil => simp
  | cons u us ih =>
    rw [List.foldl_cons]
    cases u with
    | none => simp only [useOne, ih]; simp
    | some g =>
      by_cases hg : g ∈ seen
      · simp only [useOne, hg, if_true, ih]
        by_cases hfg : f = g
        · subst hfg; simp [hg]
        · simp [hfg]
      · simp only [useOne, hg, if_false, ih]
        by_cases hfg : f = g
        · subst hfg; simp [hg]
        · simp [hfg]

theorem direct_eq (m : Mod) (f s : Nat) :
    direct m f s = m.vars.filter fun v => decide (s = v.set ∧ some f ∈ m.users v.id) := by
  unfold direct
  suffices ∀ (l : List Var) (t : Used),
      (l.foldl (fun t v => ((m.users v.id).foldl (useOne v) (t, [])).1) t) f s =
        t f s ++ l.filter fun v => decide (s = v.set ∧ some f ∈ m.users v.id) by
    rw [this]; simp
  intro l
  induction l with
  | nil => intro t; simp
  | cons v l ih =>
    intro t
    rw [List.foldl_cons, ih, useOne_fold]
    by_cases h : s = v.set ∧ some f ∈ m.users v.id
    · rw [if_pos ⟨h.1, h.2, by simp⟩, List.filter_cons_of_pos (by simpa using h)]; simp
    · rw [if_neg (fun h' => h ⟨h'.1, h'.2.1⟩), List.filter_cons_of_neg (by simpa using h)]

/-! ### the order of functions -/

/-- Callees before callers, each once. -/
inductive Post (calls : Nat → List Nat) : List Nat → Prop where
  | nil : Post calls []
  | snoc {l f} : Post calls l → (∀ g ∈ calls f, g ∈ l) → f ∉ l → Post calls (l ++ [f])

/-- What a visit keeps. -/
structure Grew (s s' : List Nat × List Nat) : Prop where
  vis : ∀ x ∈ s.1, x ∈ s'.1
  ord : ∀ x ∈ s.2, x ∈ s'.2
  new : ∀ x ∈ s'.2, x ∈ s.2 ∨ x ∉ s.1
  pend : ∀ x ∈ s'.1, x ∉ s'.2 → x ∈ s.1 ∧ x ∉ s.2

theorem Grew.refl (s : List Nat × List Nat) : Grew s s :=
  ⟨fun _ h => h, fun _ h => h, fun _ h => .inl h, fun _ h h' => ⟨h, h'⟩⟩

theorem Grew.trans {s t u : List Nat × List Nat} (h : Grew s t) (k : Grew t u) : Grew s u := by
  refine ⟨fun x hx => k.vis x (h.vis x hx), fun x hx => k.ord x (h.ord x hx), ?_, ?_⟩
  · intro x hx
    rcases k.new x hx with hx | hx
    · exact h.new x hx
    · exact .inr fun h' => hx (h.vis x h')
  · intro x hx hn
    obtain ⟨h1, h2⟩ := k.pend x hx hn
    exact h.pend x h1 h2

structure Good (calls : Nat → List Nat) (s : List Nat × List Nat) : Prop where
  post : Post calls s.2
  sub : ∀ x ∈ s.2, x ∈ s.1

theorem visit_ok {calls : Nat → List Nat} {rank : Nat → Nat}
    (hr : ∀ f, ∀ g ∈ calls f, rank g < rank f) (n f : Nat) (s : List Nat × List Nat)
    (hn : rank f < n) (good : Good calls s) (hp : ∀ x ∈ s.1, x ∉ s.2 → rank f < rank x) :
    ∃ s', visit calls n f s = some s' ∧ Good calls s' ∧ Grew s s' ∧ f ∈ s'.2 := by
  induction n generalizing f s with
  | zero => omega
  | succ n ih =>
    unfold visit
    by_cases hf : f ∈ s.1
    · refine ⟨s, by simp [hf], good, .refl s, ?_⟩
      by_cases h : f ∈ s.2
      · exact h
      · have := hp f hf h; omega
    · rw [if_neg hf]
      have fold : ∀ (gs : List Nat) (t : List Nat × List Nat), (∀ g ∈ gs, g ∈ calls f) →
          Good calls t → (∀ x ∈ t.1, x ∉ t.2 → rank f ≤ rank x) →
          ∃ t', gs.foldlM (fun s g => visit calls n g s) t = some t' ∧ Good calls t' ∧ Grew t t' ∧
            ∀ g ∈ gs, g ∈ t'.2 := by
        intro gs
        induction gs with
        | nil => intro t _ h _; exact ⟨t, rfl, h, .refl t, by simp⟩
        | cons g gs ihg =>
          intro t hgs ht hpt
          have hg := hr f g (hgs g (by simp))
          obtain ⟨t1, e1, g1, gr1, m1⟩ := ih g t (by omega) ht fun x hx hx' => by
            have := hpt x hx hx'; omega
          obtain ⟨t2, e2, g2, gr2, m2⟩ := ihg t1 (fun z hz => hgs z (by simp [hz])) g1 fun x hx hx' =>
            hpt x (gr1.pend x hx hx').1 (gr1.pend x hx hx').2
          refine ⟨t2, ?_, g2, gr1.trans gr2, ?_⟩
          · rw [List.foldlM_cons, e1]; exact e2
          · intro z hz
            rcases List.mem_cons.1 hz with rfl | hz
            · exact gr2.ord _ m1
            · exact m2 z hz
      have hfo : f ∉ s.2 := fun h => hf (good.sub f h)
      obtain ⟨t, e, gt, gr, mt⟩ := fold (calls f) (f :: s.1, s.2) (fun _ h => h)
        ⟨good.post, fun x hx => List.mem_cons_of_mem _ (good.sub x hx)⟩ (by
          intro x hx hx'
          rcases List.mem_cons.1 hx with rfl | hx
          · omega
          · have := hp x hx hx'; omega)
      rw [e]
      have hft : f ∉ t.2 := fun h => by
        rcases gr.new f h with h | h
        · exact hfo h
        · exact h (by simp)
      refine ⟨_, rfl, ⟨.snoc gt.post mt hft, ?_⟩, ?_, by simp⟩
      · intro x hx
        rcases List.mem_append.1 hx with hx | hx
        · exact gt.sub x hx
        · simp at hx; subst hx; exact gr.vis x (by simp)
      · refine ⟨fun x hx => gr.vis x (by simp [hx]), fun x hx => List.mem_append.2 (.inl (gr.ord x hx)),
          ?_, ?_⟩
        · intro x hx
          rcases List.mem_append.1 hx with hx | hx
          · rcases gr.new x hx with h | h
            · exact .inl h
            · exact .inr fun h' => h (by simp [h'])
          · simp at hx; subst hx; exact .inr hf
        · intro x hx hx'
          simp at hx'
          obtain ⟨h1, h2⟩ := gr.pend x hx hx'.1
          simp [hx'.2] at h1
          exact ⟨h1, h2⟩

theorem visitAll_ok {calls : Nat → List Nat} {rank : Nat → Nat}
    (hr : ∀ f, ∀ g ∈ calls f, rank g < rank f) (n : Nat) (es : List Nat)
    (hn : ∀ e ∈ es, rank e < n) (s : List Nat × List Nat) (good : Good calls s)
    (hp : ∀ x ∈ s.1, x ∈ s.2) :
    ∃ s', es.foldlM (fun s e => visit calls n e s) s = some s' ∧ Good calls s' ∧
      (∀ x ∈ s.2, x ∈ s'.2) ∧ ∀ e ∈ es, e ∈ s'.2 := by
  induction es generalizing s with
  | nil => exact ⟨s, rfl, good, fun _ h => h, by simp⟩
  | cons e es ih =>
    obtain ⟨t, h1, h2, h3, h4⟩ := visit_ok hr n e s (hn e (by simp)) good
      fun x hx hx' => absurd (hp x hx) hx'
    obtain ⟨u, k1, k2, k3, k4⟩ := ih (fun e he => hn e (by simp [he])) t h2 fun x hx => by
      by_cases h : x ∈ t.2
      · exact h
      · exact absurd (hp x (h3.pend x hx h).1) (h3.pend x hx h).2
    refine ⟨u, ?_, k2, fun x hx => k3 x (h3.ord x hx), ?_⟩
    · rw [List.foldlM_cons, h1]; exact k1
    · intro x hx
      rcases List.mem_cons.1 hx with rfl | hx
      · exact k3 _ h4
      · exact k4 x hx

theorem visit_mono {calls : Nat → List Nat} (n f : Nat) (s r : List Nat × List Nat)
    (h : visit calls n f s = some r) : visit calls (n + 1) f s = some r := by
  induction n generalizing f s r with
  | zero => simp [visit] at h
  | succ n ih =>
    unfold visit at h ⊢
    by_cases hf : f ∈ s.1
    · simp [hf] at h ⊢; exact h
    · rw [if_neg hf] at h ⊢
      have fold : ∀ (gs : List Nat) (t t' : List Nat × List Nat),
          gs.foldlM (fun s g => visit calls n g s) t = some t' →
          gs.foldlM (fun s g => visit calls (n + 1) g s) t = some t' := by
        intro gs
        induction gs with
        | nil => intro t t' h; exact h
        | cons g gs ihg =>
          intro t t' h
          rw [List.foldlM_cons] at h ⊢
          cases h1 : visit calls n g t with
          | none => rw [h1] at h; simp at h
          | some u => rw [h1] at h; rw [ih g t u h1]; exact ihg u t' h
      cases h1 : (calls f).foldlM (fun s g => visit calls n g s) (f :: s.1, s.2) with
      | none => rw [h1] at h; simp at h
      | some u => rw [h1] at h; rw [fold _ _ _ h1]; exact h

theorem visitOrder_mono {m : Mod} {n k : Nat} {o : List Nat} (hk : n ≤ k)
    (h : visitOrder m n = some o) : visitOrder m k = some o := by
  induction k with
  | zero => simpa [Nat.le_zero.1 hk] using h
  | succ k ih =>
    rcases Nat.lt_or_ge k n with hlt | hge
    · have : n = k + 1 := by omega
      rw [← this]; exact h
    have ih := ih hge
    unfold visitOrder at ih ⊢
    have fold : ∀ (gs : List Nat) (t t' : List Nat × List Nat),
        gs.foldlM (fun s g => visit m.calls k g s) t = some t' →
        gs.foldlM (fun s g => visit m.calls (k + 1) g s) t = some t' := by
      intro gs
      induction gs with
      | nil => intro t t' h; exact h
      | cons g gs ihg =>
        intro t t' h
        rw [List.foldlM_cons] at h ⊢
        cases h1 : visit m.calls k g t with
        | none => rw [h1] at h; simp at h
        | some u => rw [h1] at h; rw [visit_mono k g t u h1]; exact ihg u t' h
    cases h1 : m.entries.foldlM (fun s e => visit m.calls k e s) ([], []) with
    | none => rw [h1] at ih; simp at ih
    | some u => rw [h1] at ih; rw [fold _ _ _ h1]; exact ih

/-! ### what entry points use -/

/-- What a list for `f` and set `s` should be. -/
structure Full (m : Mod) (f s : Nat) (l : List Var) : Prop where
  mem : ∀ v, v ∈ l ↔ v.set = s ∧ UsedBy m f v
  sorted : Sorted l

theorem direct_full {m : Mod} (hA : m.vars.Pairwise fun x y => x.id ≠ y.id) (f s : Nat) :
    (∀ v, v ∈ stableSort (less Var.first) (direct m f s) ↔
      v.set = s ∧ v ∈ m.vars ∧ some f ∈ m.users v.id) ∧
    Sorted (stableSort (less Var.first) (direct m f s)) := by
  constructor
  · intro v
    rw [mem_stableSort, direct_eq]
    simp only [List.mem_filter, decide_eq_true_eq]
    constructor
    · rintro ⟨h1, h2, h3⟩; exact ⟨h2.symm, h1, h3⟩
    · rintro ⟨h1, h2, h3⟩; exact ⟨h2, h1.symm, h3⟩
  · apply stableSort_sorted (distinct_of hA)
    · intro y hy; rw [direct_eq] at hy; exact (List.mem_filter.1 hy).1
    · rw [direct_eq]
      exact (hA.imp (fun {a b} h he => h (by rw [he]))).filter _

theorem propagate_fold {m : Mod} (hA : Distinct m.vars) (f : Nat) (gs : List Nat) (t : Used)
    (hf : f ∉ gs) (hg : ∀ g ∈ gs, ∀ s, Full m g s (t g s))
    (hs : ∀ s, Sorted (t f s) ∧ ∀ v ∈ t f s, v ∈ m.vars) :
    let t' := gs.foldl (fun t g => fun h s =>
      if h = f then mergeInto (less Var.first) (t f s) (t g s) else t h s) t
    (∀ h, h ≠ f → t' h = t h) ∧ ∀ s, Sorted (t' f s) ∧ ∀ v, v ∈ t' f s ↔
      v ∈ t f s ∨ v.set = s ∧ ∃ g ∈ gs, UsedBy m g v := by
  induction gs generalizing t with
  | nil =>
    refine ⟨fun _ _ => rfl, fun s => ⟨(hs s).1, fun v => ?_⟩⟩
    simp
  | cons g gs ih =>
    simp only [List.foldl_cons]
    have hfg : g ≠ f := fun h => hf (by simp [h])
    have hgf := fun s => hg g (by simp) s
    have hmem : ∀ s, ∀ v ∈ mergeInto (less Var.first) (t f s) (t g s), v ∈ m.vars := by
      intro s v hv
      rcases mem_mergeInto.1 hv with h | h
      · exact (hs s).2 v h
      · exact ((hgf s).mem v).1 h |>.2.1
    have := ih (fun h s => if h = f then mergeInto (less Var.first) (t f s) (t g s) else t h s)
      (fun h => hf (by simp [h])) (by
        intro x hx s
        have hxf : x ≠ f := fun h => hf (by simp [← h, hx])
        simp only [hxf, if_false]
        exact hg x (by simp [hx]) s) (by
        intro s
        simp only [if_true]
        exact ⟨mergeInto_sorted hA (hs s).2 (fun v hv => ((hgf s).mem v).1 hv |>.2.1) (hs s).1
          (hgf s).sorted, hmem s⟩)
    obtain ⟨h1, h2⟩ := this
    refine ⟨?_, ?_⟩
    · intro h hh
      rw [h1 h hh]
      funext s
      simp [hh]
    · intro s
      refine ⟨(h2 s).1, fun v => ?_⟩
      rw [(h2 s).2 v]
      simp only [if_true]
      rw [mem_mergeInto, (hgf s).mem v]
      simp only [List.mem_cons, exists_eq_or_imp]
      grind

theorem collect_full {m : Mod} (hA : m.vars.Pairwise fun x y => x.id ≠ y.id) {order : List Nat}
    (ho : Post m.calls order) :
    (∀ f ∈ order, ∀ s, Full m f s (collect m order f s)) ∧
    (∀ f, f ∉ order → ∀ s, collect m order f s = stableSort (less Var.first) (direct m f s)) := by
  induction ho with
  | nil => exact ⟨by simp, fun f _ s => rfl⟩
  | @snoc l f hl hc hf ih =>
    have e : collect m (l ++ [f]) = propagate (less Var.first) m.calls (collect m l) f := by
      unfold collect; rw [List.foldl_append]; rfl
    have d := direct_full hA f
    have := propagate_fold (distinct_of hA) f (m.calls f) (collect m l) (fun h => hf (hc f h))
      (fun g hg s => ih.1 g (hc g hg) s) (fun s => by
        rw [ih.2 f hf s]
        exact ⟨(d s).2, fun v hv => ((d s).1 v).1 hv |>.2.1⟩)
    obtain ⟨h1, h2⟩ := this
    rw [e]
    unfold propagate
    constructor
    · intro x hx s
      by_cases hxf : x = f
      · subst hxf
        refine ⟨fun v => ?_, (h2 s).1⟩
        rw [(h2 s).2 v, ih.2 x hf s, (d s).1 v]
        constructor
        · rintro (⟨h, h', h''⟩ | ⟨h, g, hg, h', f', hr, hu⟩)
          · exact ⟨h, h', x, .refl, h''⟩
          · exact ⟨h, h', f', .call hg hr, hu⟩
        · rintro ⟨h, h', f', hr, hu⟩
          cases hr with
          | refl => exact .inl ⟨h, h', hu⟩
          | call hg hr => exact .inr ⟨h, _, hg, h', f', hr, hu⟩
      · rw [h1 x hxf]
        rcases List.mem_append.1 hx with hx | hx
        · exact ih.1 x hx s
        · simp at hx; exact absurd hx hxf
    · intro x hx s
      simp at hx
      rw [h1 x hx.2]
      exact ih.2 x hx.1 s

end Verif.Bindings
