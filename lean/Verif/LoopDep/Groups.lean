import Verif.LoopDep.Top

set_option linter.unusedSimpArgs false
set_option linter.unusedVariables false

/-!
# Groups of subscripts, and how often the delta test goes round
-/

namespace Verif.LoopDep

open Verif.ScalarEvo
open Verif.ScalarEvo.Spec (Env eval evalSum)
open Verif.LoopDep.Spec

theorem groupHas_iff {c : Ctx} {l : Nat} {g : List (Nat × Nat)} :
    c.groupHas l g = true ↔ ∃ p ∈ g, l ∈ pairLoops (c.node p.1) (c.node p.2) := by
  simp [Ctx.groupHas]

theorem mergeFor_count {c : Ctx} (l l' : Nat) : ∀ gs : List (List (Nat × Nat)),
    (c.mergeFor l' gs).countP (c.groupHas l) ≤ gs.countP (c.groupHas l)
  | [] => by simp [Ctx.mergeFor]
  | g :: rest => by
    unfold Ctx.mergeFor
    split
    · have hsplit : rest.countP (c.groupHas l) =
          (rest.filter (c.groupHas l')).countP (c.groupHas l) +
          (rest.filter fun g => !c.groupHas l' g).countP (c.groupHas l) := by
        induction rest with
        | nil => rfl
        | cons a t ih =>
          simp only [List.countP_cons, List.filter_cons]
          cases c.groupHas l' a <;> simp [List.countP_cons, ih] <;> omega
      rw [List.countP_cons, List.countP_cons, hsplit]
      have hone : (if c.groupHas l (toSet g (rest.filter (c.groupHas l')).flatten) then 1 else 0) ≤
          (if c.groupHas l g then 1 else 0) +
          (rest.filter (c.groupHas l')).countP (c.groupHas l) := by
        split
        · rename_i h
          obtain ⟨p, hp, hl⟩ := groupHas_iff.1 h
          rcases mem_toSet.1 hp with hp | hp
          · rw [if_pos (groupHas_iff.2 ⟨p, hp, hl⟩)]; omega
          · obtain ⟨g', hg', hp'⟩ := List.mem_flatten.1 hp
            have : 0 < (rest.filter (c.groupHas l')).countP (c.groupHas l) :=
              List.countP_pos_iff.2 ⟨g', hg', groupHas_iff.2 ⟨p, hp', hl⟩⟩
            omega
        · omega
      omega
    · have ih := mergeFor_count (c := c) l l' rest
      simp only [List.countP_cons]; omega

theorem mergeFor_one {c : Ctx} (l : Nat) : ∀ gs : List (List (Nat × Nat)),
    (c.mergeFor l gs).countP (c.groupHas l) ≤ 1
  | [] => by simp [Ctx.mergeFor]
  | g :: rest => by
    unfold Ctx.mergeFor
    split
    · have : (rest.filter fun g => !c.groupHas l g).countP (c.groupHas l) = 0 := by
        rw [List.countP_eq_zero]
        intro a ha
        rw [List.mem_filter] at ha
        simpa using ha.2
      rw [List.countP_cons, this]
      split <;> omega
    · rename_i h
      rw [List.countP_cons, if_neg h]
      exact mergeFor_one l rest

theorem mergeAll_count {c : Ctx} (l : Nat) : ∀ (ls : List Nat) (gs : List (List (Nat × Nat))),
    (c.mergeAll ls gs).countP (c.groupHas l) ≤ gs.countP (c.groupHas l)
  | [], gs => Nat.le_refl _
  | l' :: ls, gs => by
    unfold Ctx.mergeAll
    exact Nat.le_trans (mergeAll_count l ls _) (mergeFor_count l l' gs)

theorem mergeAll_one {c : Ctx} {l : Nat} : ∀ {ls : List Nat} (gs : List (List (Nat × Nat))),
    l ∈ ls → (c.mergeAll ls gs).countP (c.groupHas l) ≤ 1
  | l' :: ls, gs, h => by
    unfold Ctx.mergeAll
    rcases List.mem_cons.1 h with rfl | h
    · exact Nat.le_trans (mergeAll_count l ls _) (mergeFor_one l gs)
    · exact mergeAll_one _ h

theorem mergeFor_mem {c : Ctx} {l : Nat} {p : Nat × Nat} : ∀ {gs : List (List (Nat × Nat))},
    (∃ g ∈ c.mergeFor l gs, p ∈ g) ↔ ∃ g ∈ gs, p ∈ g
  | [] => by simp [Ctx.mergeFor]
  | g :: rest => by
    unfold Ctx.mergeFor
    split
    · constructor
      · rintro ⟨g', hg', hp⟩
        rcases List.mem_cons.1 hg' with rfl | hg'
        · rcases mem_toSet.1 hp with hp | hp
          · exact ⟨g, by simp, hp⟩
          · obtain ⟨g', hg', hp'⟩ := List.mem_flatten.1 hp
            exact ⟨g', by simp [(List.mem_filter.1 hg').1], hp'⟩
        · exact ⟨g', by simp [(List.mem_filter.1 hg').1], hp⟩
      · rintro ⟨g', hg', hp⟩
        rcases List.mem_cons.1 hg' with rfl | hg'
        · exact ⟨_, List.mem_cons_self .., mem_toSet.2 (.inl hp)⟩
        · by_cases hh : c.groupHas l g' = true
          · exact ⟨_, List.mem_cons_self .., mem_toSet.2 (.inr (List.mem_flatten.2
              ⟨g', List.mem_filter.2 ⟨hg', hh⟩, hp⟩))⟩
          · exact ⟨g', List.mem_cons_of_mem _ (List.mem_filter.2 ⟨hg', by simpa using hh⟩), hp⟩
    · have ih := mergeFor_mem (c := c) (l := l) (p := p) (gs := rest)
      simp only [List.mem_cons, exists_eq_or_imp, ih]

theorem mergeAll_mem {c : Ctx} {p : Nat × Nat} : ∀ {ls : List Nat} {gs : List (List (Nat × Nat))},
    (∃ g ∈ c.mergeAll ls gs, p ∈ g) ↔ ∃ g ∈ gs, p ∈ g
  | [], gs => Iff.rfl
  | l :: ls, gs => by
    unfold Ctx.mergeAll
    rw [mergeAll_mem, mergeFor_mem]

theorem countP_le_one {α : Type} {f : α → Bool} : ∀ {xs : List α} {i j : Nat} {a b : α},
    xs.countP f ≤ 1 → xs[i]? = some a → xs[j]? = some b → f a = true → f b = true → i = j
  | [], i, j, a, b, _, h, _, _, _ => by simp at h
  | x :: xs, i, j, a, b, hc, ha, hb, fa, fb => by
    rw [List.countP_cons] at hc
    have pos : ∀ {k : Nat} {y : α}, xs[k]? = some y → f y = true → 0 < xs.countP f :=
      fun h hf => List.countP_pos_iff.2 ⟨_, List.mem_of_getElem? h, hf⟩
    cases i with
    | zero =>
      cases j with
      | zero => rfl
      | succ j =>
        simp at ha hb
        subst ha
        rw [if_pos fa] at hc
        have := pos hb fb
        omega
    | succ i =>
      cases j with
      | zero =>
        simp at ha hb
        subst hb
        rw [if_pos fb] at hc
        have := pos ha fa
        omega
      | succ j =>
        simp only [List.getElem?_cons_succ] at ha hb
        have := countP_le_one (Nat.le_trans (Nat.le_add_right _ _) hc) ha hb fa fb
        omega

theorem mentions_recurrents_list {l : Nat} {cs : List Node}
    (h : ∀ c ∈ cs, Mentions l c → ∃ off coef, Node.recur l off coef ∈ c.recurrents)
    (hm : MentionsList l cs) : ∃ off coef, Node.recur l off coef ∈ Node.recurrentsList cs := by
  induction cs with
  | nil => simp [MentionsList] at hm
  | cons c cs ih =>
    simp only [MentionsList] at hm
    simp only [Node.recurrentsList, List.mem_append]
    rcases hm with hm | hm
    · obtain ⟨o, k, h⟩ := h c (by simp) hm
      exact ⟨o, k, .inl h⟩
    · obtain ⟨o, k, h⟩ := ih (fun c hc => h c (by simp [hc])) hm
      exact ⟨o, k, .inr h⟩

theorem mentions_recurrents {l : Nat} : ∀ {n : Node}, Mentions l n →
    ∃ off coef, Node.recur l off coef ∈ n.recurrents
  | .const _, h => by simp [Mentions] at h
  | .unknown _, h => by simp [Mentions] at h
  | .cant, h => by simp [Mentions] at h
  | .recur l' o k, h => by
    simp only [Mentions] at h
    simp only [Node.recurrents, List.mem_cons, List.mem_append]
    rcases h with rfl | h | h
    · exact ⟨o, k, .inl rfl⟩
    · obtain ⟨o, k, h⟩ := mentions_recurrents h
      exact ⟨o, k, .inr (.inl h)⟩
    · obtain ⟨o, k, h⟩ := mentions_recurrents h
      exact ⟨o, k, .inr (.inr h)⟩
  | .add cs, h => by
    simp only [Mentions] at h
    simp only [Node.recurrents]
    exact mentions_recurrents_list (fun c hc => mentions_recurrents) h
  | .mul a b, h => by
    simp only [Mentions] at h
    simp only [Node.recurrents, List.mem_append]
    rcases h with h | h
    · obtain ⟨o, k, h⟩ := mentions_recurrents h
      exact ⟨o, k, .inl h⟩
    · obtain ⟨o, k, h⟩ := mentions_recurrents h
      exact ⟨o, k, .inr h⟩
  | .neg a, h => by
    simp only [Mentions] at h
    simp only [Node.recurrents]
    exact mentions_recurrents h

theorem mention_pairLoops {l : Nat} {s d : Node} (h : Mentions l s ∨ Mentions l d) :
    l ∈ pairLoops s d := by
  rw [mem_pairLoops]
  exact h.imp mentions_recurrents mentions_recurrents

/-! ## Rounds of the delta test -/

theorem sortOut_length : ∀ {ps siv miv : List (Node × Node)}, sortOut ps = some (siv, miv) →
    siv.length + miv.length = ps.length
  | [], siv, miv, h => by cases h; rfl
  | (s, d) :: ps, siv, miv, h => by
    unfold sortOut at h
    split at h
    · cases h
    · split at h
      · cases h
      · rename_i siv' miv' hs
        have := sortOut_length hs
        split at h <;> cases h <;> simp <;> omega

theorem propagateInto_length {c : Ctx} {ks : List Constraint} : ∀ {ps qs : List (Node × Node)},
    c.propagateInto ks ps = .ok qs → qs.length = ps.length
  | [], qs, h => by unfold Ctx.propagateInto at h; cases okOk h; rfl
  | p :: ps, qs, h => by
    unfold Ctx.propagateInto at h
    bstep h q hq
    bstep h qs' hqs
    cases pureOk h
    simp [propagateInto_length hqs]

theorem bind_congr {α β : Type} {x : Except Err α} {f g : α → Except Err β}
    (h : ∀ a, x = .ok a → f a = g a) : (x >>= f) = (x >>= g) := by
  cases x with
  | error e => rfl
  | ok a => exact h a rfl

theorem deltaLoop_done {c : Ctx} (fuel : Nat) (ks : List Constraint) (ap : List Nat)
    (miv : List (Node × Node)) : c.deltaLoop (fuel + 1) ks ap [] miv = .ok (some (ks, ap, miv)) := by
  unfold Ctx.deltaLoop; rfl

theorem deltaLoop_rounds {c : Ctx} : ∀ (n : Nat) (ks : List Constraint) (ap : List Nat)
    (siv miv : List (Node × Node)) (fuel : Nat), miv.length ≤ n → n + 2 ≤ fuel →
    c.deltaLoop fuel ks ap siv miv = c.deltaLoop (n + 2) ks ap siv miv := by
  intro n
  induction n with
  | zero =>
    intro ks ap siv miv fuel hm hf
    obtain ⟨fuel, rfl⟩ : ∃ f, fuel = f + 2 := ⟨fuel - 2, by omega⟩
    unfold Ctx.deltaLoop
    cases siv with
    | nil => rfl
    | cons p ps =>
      simp only
      apply bind_congr; intro results _
      split
      · rfl
      · apply bind_congr; intro new _
        apply bind_congr; intro met _
        apply bind_congr; intro fe _
        split
        · rfl
        · apply bind_congr; intro sm _
          split
          · rw [deltaLoop_done, deltaLoop_done]
          · apply bind_congr; intro qs hqs
            have hl := propagateInto_length hqs
            split
            · rfl
            · rename_i siv' miv' hs
              have hl2 := sortOut_length hs
              have : siv' = [] := List.eq_nil_of_length_eq_zero (by omega)
              subst this
              rw [deltaLoop_done, deltaLoop_done]
  | succ n ih =>
    intro ks ap siv miv fuel hm hf
    obtain ⟨fuel, rfl⟩ : ∃ f, fuel = f + 2 := ⟨fuel - 2, by omega⟩
    rw [show n + 1 + 2 = (n + 2) + 1 from rfl, show fuel + 2 = (fuel + 1) + 1 from rfl]
    unfold Ctx.deltaLoop
    cases siv with
    | nil => rfl
    | cons p ps =>
      simp only
      apply bind_congr; intro results _
      split
      · rfl
      · apply bind_congr; intro new _
        apply bind_congr; intro met _
        apply bind_congr; intro fe _
        split
        · rfl
        · apply bind_congr; intro sm _
          split
          · rw [deltaLoop_done, deltaLoop_done]
          · apply bind_congr; intro qs hqs
            have hl := propagateInto_length hqs
            split
            · rfl
            · rename_i siv' miv' hs
              have hl2 := sortOut_length hs
              cases siv' with
              | nil => rw [deltaLoop_done, deltaLoop_done]
              | cons a t =>
                simp at hl2
                exact ih _ _ _ _ _ (by omega) (by omega)

end Verif.LoopDep
