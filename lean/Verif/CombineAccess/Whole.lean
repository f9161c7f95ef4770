import Verif.CombineAccess.Keep
set_option linter.unusedSimpArgs false
set_option linter.unusedVariables false

namespace Verif.CombineAccess

open Spec

/-- What `combine` does: nothing, or one of the five cases. -/
inductive Did (m : Mod) (d : Id) : Mod → Prop
  | same : Did m d m
  | skip {c f} (hd : m.defn d = some (.chain c)) (hf : m.defn c.base = some (.chain f))
      (hi : f.idx = []) : Did m d (setDef m d (.chain { c with base := f.base }))
  | copy {c f} (hd : m.defn d = some (.chain c)) (hf : m.defn c.base = some (.chain f))
      (hi : c.idx = []) : Did m d (setDef m d (.copy c.base))
  | app {c f} (hd : m.defn d = some (.chain c)) (hf : m.defn c.base = some (.chain f))
      (hp : c.ptr = false) (hi : f.idx ≠ []) :
      Did m d (setDef m d (.chain (newChain f c (f.idx ++ c.idx))))
  | sum {c f init l e rest m' n} (hd : m.defn d = some (.chain c))
      (hf : m.defn c.base = some (.chain f)) (hp : c.ptr = true)
      (hi : f.idx = init ++ [l]) (hc : c.idx = e :: rest)
      (hm : combineIndices m f l e = some (m', n)) :
      Did m d (setDef m' d (.chain (newChain f c (init ++ n :: rest))))

theorem combine_did (m : Mod) (d : Id) : Did m d (combine m d) := by
  unfold combine
  split
  · rename_i c hd
    split
    · rename_i f hf
      split
      · exact .same
      · split
        · exact .same
        · split
          · rename_i hl
            exact .skip hd hf (List.getLast?_eq_none_iff.1 hl)
          · rename_i l hl
            have hsp := getLast_split hl
            split
            · rename_i hci
              exact .copy hd hf hci
            · unfold append
              split
              · rename_i hcp
                split
                · exact .same
                · rename_i e rest hce
                  split
                  · exact .same
                  · rename_i m' n hm
                    exact .sum hd hf hcp hsp hce hm
              · rename_i hcp
                have hcp : c.ptr = false := by simpa using hcp
                have e1 : f.idx.dropLast ++ l :: c.idx = f.idx ++ c.idx := by
                  conv => rhs; rw [hsp]
                  simp
                rw [e1]
                exact .app hd hf hcp (by rw [hsp]; simp)
    · exact .same
  · exact .same

/-- What `combineIndices` leaves. -/
theorem combineIndices_shape {m m' : Mod} {f : Chain} {l e n : Id}
    (h : combineIndices m f l e = some (m', n)) :
    n = m.next ∧ m'.next = m.next + 1 ∧ m'.pty = m.pty ∧ m'.stride = m.stride ∧
      (∀ x, x ≠ n → m'.defn x = m.defn x) ∧ (∀ x, x ≠ n → m'.cst x = m.cst x) ∧
      (∀ c, m'.defn n ≠ some (.chain c) ∨ m.defn n = some (.chain c)) ∧
      (∀ a b, m'.defn n = some (.add a b) → a = l ∧ b = e ∨ m.defn n = some (.add a b)) ∧
      (∀ x, x ≠ n → m'.wide x = m.wide x) ∧ m'.wide n = false := by
  unfold combineIndices at h
  simp only at h
  split at h
  · cases h
    refine ⟨rfl, rfl, rfl, rfl, fun _ _ => rfl, fun x hx => by simp [hx], ?_, ?_,
      fun x hx => by simp [hx], by simp⟩
    · intro c
      show m.defn m.next ≠ _ ∨ _
      by_cases hh : m.defn m.next = some (.chain c)
      · exact Or.inr hh
      · exact Or.inl hh
    · intro a b hh
      exact Or.inr hh
  · split at h
    · cases h
      refine ⟨rfl, rfl, rfl, rfl, fun x hx => by simp [hx], fun _ _ => rfl, ?_, ?_,
        fun x hx => by simp [hx], by simp⟩
      · intro c
        exact Or.inl (by simp)
      · intro a b hh
        simp at hh
        exact Or.inl ⟨hh.1.symm, hh.2.symm⟩
    · exact absurd h (by simp)

theorem combine_next (m : Mod) (d : Id) : m.next ≤ (combine m d).next := by
  have hdid := combine_did m d
  generalize combine m d = M at hdid ⊢
  cases hdid with
  | same => exact Nat.le_refl _
  | skip => exact Nat.le_refl _
  | copy => exact Nat.le_refl _
  | app => exact Nat.le_refl _
  | sum _ _ _ _ _ hm =>
    have := (combineIndices_shape hm).2.1
    exact Nat.le_trans (Nat.le_succ _) (Nat.le_of_eq this.symm)

theorem combine_pty (m : Mod) (d : Id) : (combine m d).pty = m.pty := by
  have hdid := combine_did m d
  generalize combine m d = M at hdid ⊢
  cases hdid with
  | same => rfl
  | skip => rfl
  | copy => rfl
  | app => rfl
  | sum _ _ _ _ _ hm => exact (combineIndices_shape hm).2.2.1

theorem fresh_setDef {m : Mod} (hF : Fresh m) {d : Id} (hd : d < m.next) {x : Def}
    (hx : ∀ c, x = .chain c → ∀ i ∈ c.idx, i < m.next)
    (ha : ∀ a b, x = .add a b → a < m.next ∧ b < m.next) : Fresh (setDef m d x) := by
  refine ⟨?_, hF.cst, ?_, ?_⟩
  · intro y hy
    rw [setDef_get]
    have : y ≠ d := fun e => Nat.not_le_of_lt hd (e ▸ hy)
    rw [if_neg this]
    exact hF.defn y hy
  · intro y c h
    rw [setDef_get] at h
    split at h
    · exact hx c (Option.some.inj h)
    · exact hF.chain y c h
  · intro y a b h
    rw [setDef_get] at h
    split at h
    · exact ha a b (Option.some.inj h)
    · exact hF.add y a b h

theorem Spec.Fresh.lt {m : Mod} (hF : Fresh m) {d : Id} {x : Def} (h : m.defn d = some x) :
    d < m.next := by
  apply Nat.lt_of_not_le
  intro hle
  rw [hF.defn d hle] at h
  exact absurd h (by simp)

theorem combine_fresh {m : Mod} (hF : Fresh m) (d : Id) : Fresh (combine m d) := by
  have hdid := combine_did m d
  generalize combine m d = M at hdid ⊢
  cases hdid with
  | same => exact hF
  | skip hd hf hi =>
    refine fresh_setDef hF (hF.lt hd) ?_ (fun a b h => absurd h (by simp))
    intro c' hc'
    cases hc'
    intro i hi'
    exact hF.chain _ _ hd i hi'
  | copy hd hf hi =>
    exact fresh_setDef hF (hF.lt hd) (fun c h => absurd h (by simp))
      (fun a b h => absurd h (by simp))
  | app hd hf hp hi =>
    refine fresh_setDef hF (hF.lt hd) ?_ (fun a b h => absurd h (by simp))
    intro c' hc' i hi'
    cases hc'
    rcases List.mem_append.1 hi' with h | h
    · exact hF.chain _ _ hf i h
    · exact hF.chain _ _ hd i h
  | @sum c f init l e rest m' n hd hf hp hi hc hm =>
    obtain ⟨hn, hnx, -, -, hdef, hcst, hch, hadd, -, -⟩ := combineIndices_shape hm
    have hl : l < m.next := hF.chain _ _ hf l (by simp [hi])
    have he : e < m.next := hF.chain _ _ hd e (by simp [hc])
    have hF' : Fresh m' := by
      refine ⟨?_, ?_, ?_, ?_⟩
      · intro x hx
        rw [hnx] at hx
        have : x ≠ n := by rw [hn]; exact Nat.ne_of_gt hx
        rw [hdef x this]
        exact hF.defn x (Nat.le_of_succ_le hx)
      · intro x hx
        rw [hnx] at hx
        have : x ≠ n := by rw [hn]; exact Nat.ne_of_gt hx
        rw [hcst x this]
        exact hF.cst x (Nat.le_of_succ_le hx)
      · intro y c' h i hi'
        rw [hnx]
        have h' : m.defn y = some (.chain c') := by
          by_cases hy : y = n
          · rcases hch c' with hh | hh
            · exact absurd (hy ▸ h) hh
            · exact hy ▸ hh
          · rw [← hdef y hy]
            exact h
        exact Nat.lt_succ_of_lt (hF.chain y c' h' i hi')
      · intro y a b h
        rw [hnx]
        have h' : a = l ∧ b = e ∨ m.defn y = some (.add a b) := by
          by_cases hy : y = n
          · rcases hadd a b (hy ▸ h) with hh | hh
            · exact Or.inl hh
            · exact Or.inr (hy ▸ hh)
          · rw [← hdef y hy]
            exact Or.inr h
        rcases h' with ⟨rfl, rfl⟩ | h'
        · exact ⟨Nat.lt_succ_of_lt hl, Nat.lt_succ_of_lt he⟩
        · exact ⟨Nat.lt_succ_of_lt (hF.add y a b h').1, Nat.lt_succ_of_lt (hF.add y a b h').2⟩
    refine fresh_setDef hF' (by rw [hnx]; exact Nat.lt_succ_of_lt (hF.lt hd)) ?_
      (fun a b h => absurd h (by simp))
    intro c' hc' i hi'
    cases hc'
    rw [hnx]
    rcases List.mem_append.1 hi' with h | h
    · exact Nat.lt_succ_of_lt (hF.chain _ _ hf i (by simp [hi, h]))
    · rcases List.mem_cons.1 h with h | h
      · rw [h, hn]
        exact Nat.lt_succ_self _
      · exact Nat.lt_succ_of_lt (hF.chain _ _ hd i (by simp [hc, h]))

/-! ### Types -/

theorem reach_append (m : Mod) (js : List Id) : ∀ (is : List Id) (t : Ty),
    reach m t (is ++ js) = (reach m t is).bind fun t' => reach m t' js := by
  intro is
  induction is with
  | nil => intro t; simp [reach]
  | cons i is ih =>
    intro t
    cases t with
    | leaf _ => simp [reach]
    | arr e s => simp [reach, ih]
    | struct ms =>
      simp only [List.cons_append, reach]
      split
      · rfl
      · split
        · rfl
        · exact ih _

theorem reach_congr (m m' : Mod) : ∀ (is : List Id) (t : Ty), (∀ i ∈ is, m'.cst i = m.cst i) →
    reach m' t is = reach m t is := by
  intro is
  induction is with
  | nil => intro t _; simp [reach]
  | cons i is ih =>
    intro t h
    have hi := h i (by simp)
    have ht := fun t => ih t (fun j hj => h j (by simp [hj]))
    cases t with
    | leaf _ => simp [reach]
    | arr e s => simp [reach, ht]
    | struct ms => simp only [reach, hi, ht]

theorem typed_setDef {m : Mod} (hT : Typed m) (d : Id) (x : Def)
    (hx : ∀ c, x = .chain c → (c.ptr = true → c.idx ≠ []) ∧
      reach m (m.pty c.base) (if c.ptr then c.idx.drop 1 else c.idx) = some (m.pty d)) :
    Typed (setDef m d x) := by
  intro y c h
  have hr : ∀ t is, reach (setDef m d x) t is = reach m t is :=
    fun t is => reach_congr m (setDef m d x) is t (fun _ _ => rfl)
  rw [hr]
  rw [setDef_get] at h
  split at h
  · rename_i e
    rw [e]
    exact hx c (Option.some.inj h)
  · exact hT y c h

theorem combine_typed {m : Mod} (hT : Typed m) (hF : Fresh m) (d : Id)
    (hE : EndsInArray m d) : Typed (combine m d) := by
  have hdid := combine_did m d
  generalize combine m d = M at hdid ⊢
  cases hdid with
  | same => exact hT
  | skip hd hf hi =>
    rename_i c f
    refine typed_setDef hT d _ ?_
    intro c' hc'
    cases hc'
    have h1 := hT _ _ hd
    have h2 := hT _ _ hf
    have hfp : f.ptr = false := by
      cases h : f.ptr with
      | false => rfl
      | true => exact absurd hi (h2.1 h)
    have h3 : m.pty f.base = m.pty c.base := by
      simpa [hfp, hi, reach] using h2.2
    exact ⟨h1.1, by rw [show m.pty f.base = _ from h3]; exact h1.2⟩
  | copy hd hf hi => exact typed_setDef hT d _ (fun c h => absurd h (by simp))
  | app hd hf hp hi =>
    rename_i c f
    refine typed_setDef hT d _ ?_
    intro c' hc'
    cases hc'
    have h1 := (hT _ _ hd).2
    have h2 := (hT _ _ hf).2
    rw [hp] at h1
    simp only [Bool.false_eq_true, if_false] at h1
    refine ⟨fun _ => by simp [newChain, hi], ?_⟩
    show reach m (m.pty f.base) (if f.ptr = true then (f.idx ++ c.idx).drop 1 else f.idx ++ c.idx)
      = some (m.pty d)
    cases hfp : f.ptr with
    | false =>
      rw [hfp] at h2
      simp only [Bool.false_eq_true, if_false] at h2 ⊢
      rw [reach_append, h2]
      exact h1
    | true =>
      rw [hfp] at h2
      simp only [if_true] at h2 ⊢
      obtain ⟨x, xs, hx⟩ := List.exists_cons_of_ne_nil hi
      rw [hx] at h2 ⊢
      simp only [List.cons_append, List.drop_succ_cons, List.drop_zero] at h2 ⊢
      rw [reach_append, h2]
      exact h1
  | @sum c f init l e rest m' n hd hf hp hi hc hm =>
    obtain ⟨hn, hnx, hpty, -, hdef, hcst, hch, hadd, -, -⟩ := combineIndices_shape hm
    have hlt : ∀ y c', m.defn y = some (.chain c') → ∀ i ∈ c'.idx, m'.cst i = m.cst i := by
      intro y c' h i hi'
      exact hcst i (by rw [hn]; exact Nat.ne_of_lt (hF.chain y c' h i hi'))
    have hT' : Typed m' := by
      intro y c' h
      have h' : m.defn y = some (.chain c') := by
        by_cases hy : y = n
        · rcases hch c' with hh | hh
          · exact absurd (hy ▸ h) hh
          · exact hy ▸ hh
        · rw [← hdef y hy]
          exact h
      refine ⟨(hT y c' h').1, ?_⟩
      rw [hpty, reach_congr m m' _ _ ?_]
      · exact (hT y c' h').2
      · intro i hi'
        refine hlt y c' h' i ?_
        split at hi'
        · exact List.mem_of_mem_drop hi'
        · exact hi'
    refine typed_setDef hT' d _ ?_
    intro c' hc'
    cases hc'
    refine ⟨fun _ => by simp [newChain], ?_⟩
    rw [hpty]
    show reach m' (m.pty f.base)
      (if f.ptr = true then (init ++ n :: rest).drop 1 else init ++ n :: rest) = some (m.pty d)
    have h1 := (hT _ _ hd).2
    have h2 := (hT _ _ hf).2
    rw [hp, hc] at h1
    simp only [if_true, List.drop_succ_cons, List.drop_zero] at h1
    have hrest : ∀ t, reach m' t rest = reach m t rest :=
      fun t => reach_congr m m' rest t (fun i hi' => hlt _ _ hd i (by simp [hc, hi']))
    have hinit : ∀ t is, (∀ i ∈ is, i ∈ init) → reach m' t is = reach m t is :=
      fun t is h => reach_congr m m' is t (fun i hi' => hlt _ _ hf i (by simp [hi, h i hi']))
    by_cases hcase : f.ptr = true ∧ init = []
    · obtain ⟨hfp, hin⟩ := hcase
      rw [hfp, hi, hin] at h2
      rw [hfp, hin]
      have h3 : m.pty f.base = m.pty c.base := by simpa [reach] using h2
      simp only [if_true, List.nil_append, List.drop_succ_cons, List.drop_zero]
      rw [hrest, h3]
      exact h1
    · have hcase' : f.ptr = false ∨ init ≠ [] := by
        cases h : f.ptr with
        | false => exact Or.inl rfl
        | true => exact Or.inr (fun h' => hcase ⟨h, h'⟩)
      obtain ⟨t, s, hr⟩ := hE c f hd hp hf init l hi hcase'
      have key : ∀ js : List Id, (if f.ptr = true then (init ++ js).drop 1 else init ++ js) =
          (if f.ptr = true then init.drop 1 else init) ++ js := by
        intro js
        split
        · rename_i hfp
          rcases hcase' with h | h
          · exact absurd hfp (by simp [h])
          · obtain ⟨x, xs, hx⟩ := List.exists_cons_of_ne_nil h
            simp [hx]
        · rfl
      rw [hi, key, reach_append, hr] at h2
      have h3 : t = m.pty c.base := by simpa [reach] using h2
      rw [key, reach_append, hinit _ _ ?_, hr]
      · simp only [Option.bind_some, reach, hrest, h3]
        exact h1
      · intro i hi'
        split at hi'
        · exact List.mem_of_mem_drop hi'
        · exact hi'

/-! ### Logical addressing -/

theorem combine_logical {m : Mod} (hL : Logical m) (d : Id) : Logical (combine m d) := by
  have hdid := combine_did m d
  generalize combine m d = M at hdid ⊢
  cases hdid with
  | same => exact hL
  | skip hd hf hi =>
    intro y c' h
    rw [setDef_get] at h
    split at h
    · cases h
      have := hL _ _ hd
      exact this
    · exact hL _ _ h
  | copy hd hf hi =>
    intro y c' h
    rw [setDef_get] at h
    split at h
    · exact absurd h (by simp)
    · exact hL _ _ h
  | app hd hf hp hi =>
    intro y c' h
    rw [setDef_get] at h
    split at h
    · cases h
      have := hL _ _ hf
      exact this
    · exact hL _ _ h
  | sum hd hf hp hi hc hm =>
    rw [hL _ _ hd] at hp
    exact absurd hp (by simp)

theorem Spec.Logical.steps {m : Mod} (hL : Logical m) (L : Layout) (V : Vals) (d : Id) :
    Steps L m V d := by
  intro c f hd hp
  rw [hL _ _ hd] at hp
  exact absurd hp (by simp)

theorem Spec.Logical.ends {m : Mod} (hL : Logical m) (d : Id) : EndsInArray m d := by
  intro c f hd hp
  rw [hL _ _ hd] at hp
  exact absurd hp (by simp)

end Verif.CombineAccess
