import Verif.LocalElim.Example
set_option linter.unusedSimpArgs false
set_option linter.unusedVariables false
set_option linter.unusedSectionVars false
/-!
# What the pass does remove
-/
namespace Verif.LocalElim
open Verif.SsaExec Verif.LocalElim.Spec
variable {I B : Type} [DecidableEq I] {f : Func I B} {n : Nat}

theorem save_step {s : State I} {i j} (h : j ∈ (f.step n s i).save) : j ∈ s.save ∨ ∃ v, s.st v = some j := by
  unfold Func.step at h
  split at h
  · split at h
    · exact .inl h
    · unfold Func.storeWhole at h
      split at h <;> exact .inl h
    · exact .inl h
  · split at h
    · exact .inl h
    · unfold Func.loadWhole at h
      split at h
      · split at h <;> exact .inl h
      · split at h <;> exact .inl h
    · unfold loadPart at h
      split at h
      · next hv =>
        simp only [List.mem_cons] at h
        rcases h with rfl | h
        · exact .inr ⟨_, hv⟩
        · exact .inl h
      · exact .inl h
  · exact .inl h
  · exact .inl h

section
variable (hw : WellFormed f n)
include hw

theorem save_at {l1 : List B} {b l2} (hb : f.blocks = l1 ++ b :: l2)
    (h0 : ∀ j ∈ (l1.foldl (f.block n) init).save, j ∈ l1.flatMap f.all) :
    ∀ (k : Nat) (pre post : List I), pre.length = k → f.all b = pre ++ post →
      ∀ j ∈ (stateAt f n l1 pre).save, j ∈ l1.flatMap f.all ++ pre := by
  intro k
  induction k with
  | zero =>
    intro pre post hk hp j hj
    have : pre = [] := by simpa using hk
    subst this
    have := h0 j hj
    simp [List.mem_flatMap] at this ⊢
    exact this
  | succ k ih =>
    intro pre post hk hp j hj
    obtain ⟨q, i, rfl⟩ : ∃ q i, pre = q ++ [i] := by
      rcases List.eq_nil_or_concat pre with rfl | ⟨q, i, rfl⟩
      · simp at hk
      · exact ⟨q, i, by simp⟩
    have hp' : f.all b = q ++ (i :: post) := by simpa using hp
    rw [stateAt_snoc] at hj
    rcases save_step hj with h1 | ⟨v, h1⟩
    · have := ih q _ (by simpa using hk) hp' j h1
      rw [← List.append_assoc]
      exact List.mem_append_left _ this
    · have := ((sinv_at hw hb hp').st v j h1).1
      rw [← List.append_assoc]
      exact List.mem_append_left _ this

theorem save_blocks : ∀ (k : Nat) (l1 l2 : List B), l1.length = k → f.blocks = l1 ++ l2 →
    ∀ j ∈ (l1.foldl (f.block n) init).save, j ∈ l1.flatMap f.all := by
  intro k
  induction k with
  | zero =>
    intro l1 l2 hk hb j hj
    have : l1 = [] := by simpa using hk
    subst this
    simp [init] at hj
  | succ k ih =>
    intro l1 l2 hk hb j hj
    obtain ⟨q, b, rfl⟩ : ∃ q b, l1 = q ++ [b] := by
      rcases List.eq_nil_or_concat l1 with rfl | ⟨q, i, rfl⟩
      · simp at hk
      · exact ⟨q, i, by simp⟩
    have hb' : f.blocks = q ++ b :: l2 := by simpa using hb
    have := save_at hw hb' (ih q _ (by simpa using hk) hb') _ (f.all b) [] rfl (by simp) j (by
      simpa [stateAt, Func.block] using hj)
    simpa using this

/-- An instruction not yet met has not been saved. -/
theorem save_fresh {b : B} {pre post : List I} {i} (hp : f.all b = pre ++ i :: post) : i ∉ (here f n b pre).save := by
  obtain ⟨l2, hb⟩ := before_spec hw b
  intro h
  exact fresh hw hb hp (save_at hw hb (save_blocks hw _ _ _ rfl hb) _ pre _ rfl hp i h)

theorem sub_variable {b : B} {pre post : List I} (hp : f.all b = pre ++ post) {v} (hv : f.kind v = .variable) :
    (here f n b pre).sub v = v := by
  obtain ⟨done, hinv⟩ := here_inv hw hp
  have hc := hinv.chain v
  generalize (here f n b pre).sub v = e at hc
  cases hc with
  | refl => rfl
  | cons h _ => rw [h.kind] at hv; cases hv

theorem access_variable {b : B} {pre post : List I} (hp : f.all b = pre ++ post) {v} (hv : f.kind v = .variable)
    (ht : f.target v = true) (hs : f.supported n v = true) : f.access n (here f n b pre) v = some (v, true) := by
  have hn := hw.deep 0 v v (.here hv)
  obtain ⟨k, rfl⟩ : ∃ k, n = k + 1 := ⟨n - 1, by omega⟩
  simp [Func.access, sub_variable hw hp hv, Func.base, Func.strip, hv, ht, hs]

/-- Between stores and calls the maps only get fuller. -/
theorem known_keep {b : B} {v : I} : ∀ (mid pre post : List I), f.all b = pre ++ (mid ++ post) →
    (∀ i ∈ mid, f.kind i ≠ .store ∧ f.kind i ≠ .call) →
    ((here f n b pre).st v ≠ none ∨ (here f n b pre).ld v ≠ none) →
    ((here f n b (pre ++ mid)).st v ≠ none ∨ (here f n b (pre ++ mid)).ld v ≠ none) := by
  intro mid
  induction mid with
  | nil => intro pre post _ _ h; simpa using h
  | cons i mid ih =>
    intro pre post hp hm h
    have e : pre ++ i :: mid = (pre ++ [i]) ++ mid := by simp
    rw [e]
    refine ih (pre ++ [i]) post (by simpa using hp) (fun j hj => hm j (by simp [hj])) ?_
    rw [here_snoc]
    obtain ⟨h1, h2⟩ := hm i (by simp)
    unfold Func.step
    split
    · next hk _ => exact absurd hk h1
    · split
      · exact h
      · next u _ =>
        unfold Func.loadWhole
        split
        · split <;> exact h
        · split
          · exact h
          · simp only [set]
            split
            · simp
            · exact h
      · unfold loadPart
        split <;> exact h
    · next hk => exact absurd hk h2
    · exact h

theorem store_keep {b : B} {v j : I} : ∀ (mid pre post : List I), f.all b = pre ++ (mid ++ post) →
    (∀ i ∈ mid, f.kind i ≠ .store ∧ f.kind i ≠ .load ∧ f.kind i ≠ .call) →
    here f n b (pre ++ mid) = here f n b pre := by
  intro mid
  induction mid with
  | nil => intro pre post _ _; simp
  | cons i mid ih =>
    intro pre post hp hm
    have e : pre ++ i :: mid = (pre ++ [i]) ++ mid := by simp
    rw [e, ih (pre ++ [i]) post (by simpa using hp) (fun j hj => hm j (by simp [hj])), here_snoc]
    obtain ⟨h1, h2, h3⟩ := hm i (by simp)
    unfold Func.step
    split
    · next hk _ => exact absurd hk h1
    · next hk _ => exact absurd hk h2
    · next hk => exact absurd hk h3
    · rfl

theorem load_removed {b : B} {pre mid post : List I} {i l v : I} (hp : f.all b = pre ++ i :: (mid ++ l :: post))
    (hv : f.kind v = .variable) (ht : f.target v = true) (hs : f.supported n v = true)
    (hi : (∃ w, f.kind i = .store ∧ f.ops i = [v, w]) ∨ (f.kind i = .load ∧ f.ops i = [v]))
    (hm : ∀ j ∈ mid, f.kind j ≠ .store ∧ f.kind j ≠ .call) (hl : f.kind l = .load) (ho : f.ops l = [v]) :
    f.removed n l = true := by
  have hp1 : f.all b = (pre ++ [i]) ++ (mid ++ l :: post) := by simpa using hp
  have h1 : (here f n b (pre ++ [i])).st v ≠ none ∨ (here f n b (pre ++ [i])).ld v ≠ none := by
    rw [here_snoc]
    unfold Func.step
    rcases hi with ⟨w, hk, hio⟩ | ⟨hk, hio⟩
    · rw [hk, hio]
      simp only [access_variable hw hp hv ht hs, Func.storeWhole]
      split
      · next h => right; simp [h]
      · left; simp [set]
    · rw [hk, hio]
      simp only [access_variable hw hp hv ht hs, Func.loadWhole]
      split
      · next h => left; split <;> simp [h]
      · split
        · next h => right; simp [h]
        · right; simp [set]
  have h2 := known_keep hw mid (pre ++ [i]) (l :: post) hp1 hm h1
  have hp2 : f.all b = (pre ++ [i] ++ mid) ++ l :: post := by simpa using hp
  obtain ⟨done, hinv⟩ := here_inv hw hp2
  apply kill_removed hw (b := b) (pre := pre ++ [i] ++ mid ++ [l]) (post := post) (by simpa using hp)
  rw [here_snoc]
  unfold Func.step
  rw [hl, ho]
  simp only [access_variable hw hp2 hv ht hs, Func.loadWhole]
  split
  · next prev hst =>
    obtain ⟨q, w, hops⟩ := hw.store prev (hinv.st v prev hst).2.2
    simp [Func.object, hops]
  · next hst =>
    split
    · simp
    · next hld => rcases h2 with h2 | h2 <;> contradiction

theorem store_removed {b : B} {pre mid post : List I} {i l v w w' : I} (hp : f.all b = pre ++ i :: (mid ++ l :: post))
    (hv : f.kind v = .variable) (ht : f.target v = true) (hs : f.supported n v = true) (hd : f.declared v = false)
    (hi : f.kind i = .store) (hio : f.ops i = [v, w]) (hl : f.kind l = .store) (hlo : f.ops l = [v, w'])
    (hm : ∀ j ∈ mid, f.kind j ≠ .store ∧ f.kind j ≠ .load ∧ f.kind j ≠ .call) : f.removed n i = true := by
  have hp1 : f.all b = (pre ++ [i]) ++ (mid ++ l :: post) := by simpa using hp
  have hp2 : f.all b = (pre ++ [i] ++ mid) ++ l :: post := by simpa using hp
  have hsv := save_fresh hw hp
  have hs1 : here f n b (pre ++ [i]) = f.storeWhole (here f n b pre) i w v := by
    rw [here_snoc]
    unfold Func.step
    rw [hi, hio]
    simp [access_variable hw hp hv ht hs]
  by_cases hc : (here f n b pre).ld v = some ((here f n b pre).sub w)
  · apply kill_removed hw hp1
    rw [hs1]
    simp [Func.storeWhole, hc]
  · apply kill_removed hw (b := b) (pre := pre ++ [i] ++ mid ++ [l]) (post := post) (by simpa using hp)
    rw [here_snoc]
    unfold Func.step
    rw [hl, hlo]
    simp only [access_variable hw hp2 hv ht hs]
    have h3 := store_keep hw (v := v) (j := i) mid (pre ++ [i]) (l :: post) hp1 hm
    rw [h3, hs1]
    simp only [Func.storeWhole, hc, if_false]
    simp [set, Func.killPrev, hsv, hd]

end
end Verif.LocalElim
