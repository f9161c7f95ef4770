import Verif.UnifyConst.Lemmas
/-!
# C81: unifying constants keeps all values and leaves no duplicates
-/
set_option linter.unusedSimpArgs false
set_option linter.unusedVariables false
namespace Verif.UnifyConst
open Spec

/-- Every id has the value it had, at the id that takes its place, whatever the values of
specialization constants are. -/
theorem same_values {V : Type} (ev : Nat → List (V ⊕ Nat) → V) (own : Nat → Nat → List (V ⊕ Nat) → V)
    (l : List Inst) (ok : Ok l) (env : Nat → V) (i : Nat) :
    eval ev own l env i = eval ev own (unify l).insts env ((unify l).repl i) := by
  refine go_eval l [] ok _ _ _ env env ⟨fun _ => rfl, by simp, ?_⟩ i
  intro ks r h h0
  rw [get_empty] at h
  exact absurd h.symm h0

/-- Undecorated constants that could be unified. -/
def Eligible (x : Inst) : Prop := x.decorated = false ∧ unifiable x.op = true

theorem go_nodup (l : List Inst) (s : Nat → Nat) (t : Trie) (m : Bool)
    (hz : ∀ x ∈ l, x.id ≠ 0) (ho : l.Pairwise fun x y => x.id ≠ y.id)
    (ht : ∀ ks, ∀ y ∈ l, get ks t ≠ y.id) :
    (∀ x ∈ (go l s t m).insts, Eligible x → get (keys x) t = 0) ∧
    (go l s t m).insts.Pairwise fun x y => Eligible x → Eligible y → keys x ≠ keys y := by
  induction l generalizing s t m with
  | nil => simp [go]
  | cons x l ih =>
    have hz' : ∀ x ∈ l, x.id ≠ 0 := fun y hy => hz y (by simp [hy])
    obtain ⟨hx, ho'⟩ := List.pairwise_cons.1 ho
    rcases go_cases x l s t m with ⟨t', e, h1, h2⟩ | ⟨t', r, e, hd, hu, hrx, hr0, hr, hk⟩
    · rw [e]
      have ht' : ∀ ks, ∀ y ∈ l, get ks t' ≠ y.id := by
        intro ks y hy
        by_cases hc : x.decorated = false ∧ unifiable x.op
        · rw [(h1 hc).1]
          split
          · exact hx y hy
          · exact ht ks y (by simp [hy])
        · rw [h2 hc]; exact ht ks y (by simp [hy])
      obtain ⟨i1, i2⟩ := ih s t' m hz' ho' ht'
      refine ⟨?_, ?_⟩
      · intro y hy he
        rcases List.mem_cons.1 hy with rfl | hy
        · rcases (h1 he).2 with q | q
          · exact q
          · exact absurd q (ht _ x (by simp))
        · have q := i1 y hy he
          by_cases hc : x.decorated = false ∧ unifiable x.op
          · rw [(h1 hc).1] at q
            split at q
            · exact absurd q (hz x (by simp))
            · exact q
          · rw [h2 hc] at q; exact q
      · refine List.pairwise_cons.2 ⟨?_, i2⟩
        intro y hy he1 he2 hkk
        have q := i1 y hy he2
        rw [(h1 he1).1, if_pos hkk.symm] at q
        exact hz x (by simp) q
    · rw [e]
      obtain ⟨i1, i2⟩ := ih (fun i => if i = x.id then r else s i) t' true hz' ho'
        (fun ks y hy => by rw [hk]; exact ht ks y (by simp [hy]))
      exact ⟨fun y hy he => by rw [← hk]; exact i1 y hy he, i2⟩

/-- Afterwards no two undecorated constants have the same opcode and operands. -/
theorem no_duplicates (l : List Inst) (ok : Ok l) :
    (unify l).insts.Pairwise fun x y => Eligible x → Eligible y → ¬ (x.op = y.op ∧ x.opds = y.opds) := by
  refine (go_nodup l (fun i => i) (.node 0 .nil) false ok.nonzero ok.once ?_).2.imp ?_
  · intro ks y hy
    rw [get_empty]
    exact (ok.nonzero y hy).symm
  · intro x y h h1 h2 ⟨e1, e2⟩
    exact h h1 h2 (by simp [keys, e1, e2])

theorem repl_frame (l : List Inst) (s : Nat → Nat) (t : Trie) (m : Bool) (i : Nat)
    (h : ∀ x ∈ l, Eligible x → x.id ≠ i) : (go l s t m).repl i = s i := by
  induction l generalizing s t m with
  | nil => rfl
  | cons x l ih =>
    rcases go_cases x l s t m with ⟨t', e, h1, h2⟩ | ⟨t', r, e, hd, hu, hrx, hr0, hr, hk⟩
    · rw [e]; exact ih s t' m fun y hy => h y (by simp [hy])
    · rw [e, ih _ t' true fun y hy => h y (by simp [hy])]
      rw [if_neg (h x (by simp) ⟨hd, hu⟩).symm]

theorem insts_ids (l : List Inst) (s : Nat → Nat) (t : Trie) (m : Bool) :
    ((go l s t m).insts.map Inst.id).Sublist (l.map Inst.id) ∧
    ∀ y ∈ (go l s t m).insts, ∃ x ∈ l, y.id = x.id ∧ y.op = x.op ∧ y.decorated = x.decorated ∧
      y.opds.length = x.opds.length := by
  induction l generalizing s t m with
  | nil => simp [go]
  | cons x l ih =>
    rcases go_cases x l s t m with ⟨t', e, h1, h2⟩ | ⟨t', r, e, hd, hu, hrx, hr0, hr, hk⟩
    · rw [e]
      obtain ⟨i1, i2⟩ := ih s t' m
      refine ⟨i1.cons_cons _, ?_⟩
      intro y hy
      rcases List.mem_cons.1 hy with rfl | hy
      · exact ⟨x, by simp, rfl, rfl, rfl, by simp [subst]⟩
      · obtain ⟨z, hz, q⟩ := i2 y hy
        exact ⟨z, by simp [hz], q⟩
    · rw [e]
      obtain ⟨i1, i2⟩ := ih (fun i => if i = x.id then r else s i) t' true
      refine ⟨i1.cons _, fun y hy => ?_⟩
      obtain ⟨z, hz, q⟩ := i2 y hy
      exact ⟨z, by simp [hz], q⟩

/-- Instructions that stay are in the same order, with the same ids, opcodes and numbers of
operands. -/
theorem order_kept (l : List Inst) : ((unify l).insts.map Inst.id).Sublist (l.map Inst.id) ∧
    ∀ y ∈ (unify l).insts, ∃ x ∈ l, y.id = x.id ∧ y.op = x.op ∧ y.decorated = x.decorated ∧
      y.opds.length = x.opds.length := insts_ids l _ _ _

theorem go_kept (l : List Inst) (s : Nat → Nat) (t : Trie) (m : Bool)
    (ho : l.Pairwise fun x y => x.id ≠ y.id) (hs : ∀ x ∈ l, s x.id = x.id) (y : Inst) (hy : y ∈ l) :
    (go l s t m).repl y.id = y.id ↔ ∃ x ∈ (go l s t m).insts, x.id = y.id := by
  induction l generalizing s t m with
  | nil => simp at hy
  | cons x l ih =>
    obtain ⟨hx, ho'⟩ := List.pairwise_cons.1 ho
    have fr : ∀ s t m, (go l s t m).repl x.id = s x.id := fun s t m =>
      repl_frame l s t m x.id fun z hz _ => (hx z hz).symm
    rcases go_cases x l s t m with ⟨t', e, h1, h2⟩ | ⟨t', r, e, hd, hu, hrx, hr0, hr, hk⟩
    · rw [e]
      rcases List.mem_cons.1 hy with rfl | hy
      · simp only [fr]
        exact ⟨fun _ => ⟨subst s y, List.mem_cons_self .., rfl⟩, fun _ => hs y (by simp)⟩
      · rw [ih s t' m ho' (fun z hz => hs z (by simp [hz])) hy]
        constructor
        · rintro ⟨z, hz, q⟩; exact ⟨z, by simp [hz], q⟩
        · rintro ⟨z, hz, q⟩
          rcases List.mem_cons.1 hz with rfl | hz
          · exact absurd q (hx y hy)
          · exact ⟨z, hz, q⟩
    · rw [e]
      rcases List.mem_cons.1 hy with rfl | hy
      · rw [fr]
        simp only [if_true]
        refine ⟨fun q => absurd q hrx, ?_⟩
        rintro ⟨z, hz, q⟩
        have := (insts_ids l (fun i => if i = y.id then r else s i) t' true).2 z hz
        obtain ⟨w, hw, q', -⟩ := this
        exact absurd (q.symm.trans q') (hx w hw)
      · refine ih _ t' true ho' (fun z hz => ?_) hy
        rw [if_neg (hx z hz).symm]; exact hs z (by simp [hz])

/-- An instruction stays exactly when its id is not replaced. -/
theorem kept_iff (l : List Inst) (ok : Ok l) (y : Inst) (hy : y ∈ l) :
    (unify l).repl y.id = y.id ↔ ∃ x ∈ (unify l).insts, x.id = y.id :=
  go_kept l _ _ _ ok.once (fun _ _ => rfl) y hy

/-- Decorated constants, specialization constants with numbers of their own, types and variables
stay. -/
theorem others_kept (l : List Inst) (ok : Ok l) (y : Inst) (hy : y ∈ l) (he : ¬ Eligible y) :
    ∃ x ∈ (unify l).insts, x.id = y.id := by
  refine (kept_iff l ok y hy).1 (repl_frame l _ _ _ y.id ?_)
  intro x hx hxe e
  have hxy : x = y := Classical.byContradiction fun hne => by
    obtain ⟨i, hi, rfl⟩ := List.getElem_of_mem hx
    obtain ⟨j, hj, rfl⟩ := List.getElem_of_mem hy
    have ho := List.pairwise_iff_getElem.1 ok.once
    rcases Nat.lt_trichotomy i j with q | q | q
    · exact ho i j hi hj q e
    · subst q; exact hne rfl
    · exact ho j i hj hi q e.symm
  exact he (hxy ▸ hxe)

theorem go_uses (l₂ l₁ : List Inst) (ok : Ok (l₁ ++ l₂)) (s : Nat → Nat) (t : Trie) (m : Bool)
    (eo en : Nat → Unit) (h : Inv (fun _ _ => ()) l₁ l₂ s t eo en) (hid : ∀ i, s (s i) = s i) :
    (∀ x ∈ (go l₂ s t m).insts, ∀ j, .ref j ∈ x.opds → (go l₂ s t m).repl j = j) ∧
    ∀ i, (go l₂ s t m).repl ((go l₂ s t m).repl i) = (go l₂ s t m).repl i := by
  induction l₂ generalizing l₁ s t m eo en with
  | nil => exact ⟨by simp [go], hid⟩
  | cons x l₂ ih =>
    have ok' : Ok ((l₁ ++ [x]) ++ l₂) := by simpa using ok
    have hne := (ids_before ok).2
    rcases go_cases x l₂ s t m with ⟨t', e, h1, h2⟩ | ⟨t', r, e, hd, hu, hrx, hr0, hr, ht⟩
    · rw [e]
      have inv := h.keep (own := fun _ _ _ => ()) (t' := t') ok (by
        intro ks r hr h0
        by_cases hc : x.decorated = false ∧ unifiable x.op
        · rw [(h1 hc).1] at hr
          split at hr
          · rename_i e; exact .inr ⟨hc.2, hr.symm, e⟩
          · exact .inl hr
        · rw [h2 hc] at hr; exact .inl hr)
      obtain ⟨i1, i2⟩ := ih (l₁ ++ [x]) ok' s t' m _ _ inv hid
      refine ⟨?_, i2⟩
      intro y hy j hj
      rcases List.mem_cons.1 hy with rfl | hy
      · obtain ⟨i, hi, rfl⟩ := subst_refs hj
        refine (repl_frame l₂ s t' m (s i) ?_).trans (hid i)
        intro z hz hze
        by_cases hsi : s i = i
        · rw [hsi]; exact ok.noForward l₁ x l₂ rfl i hi z (by simp [hz]) hze.2
        · obtain ⟨-, w, hw, ew⟩ := h.dom i hsi
          rw [← ew]; exact (hne w hw z (by simp [hz])).symm
      · exact i1 y hy j hj
    · rw [e]
      have inv := h.kill (own := fun _ _ _ => ()) ok hu hr hr0 ht
      refine ih (l₁ ++ [x]) ok' _ t' true _ _ inv ?_
      obtain ⟨y, hy, s', k1, k2, -⟩ := h.stored _ r hr hr0
      intro i
      by_cases hi : i = x.id
      · simp [hi, hrx, k2]
      · simp only [if_neg hi]
        have : s i ≠ x.id := fun q => by
          have q' : s i ≠ i := fun e => hi (by rw [← e, q])
          obtain ⟨-, w, hw, ew⟩ := h.dom i q'
          exact hne w hw x (by simp) (by rw [ew, q])
        rw [if_neg this, hid]

theorem start {l : List Inst} : Inv (V := Unit) (fun _ _ => ()) [] l (fun i => i) (.node 0 .nil)
    (fun _ => ()) (fun _ => ()) :=
  ⟨fun _ => rfl, by simp, fun ks r h h0 => by rw [get_empty] at h; exact absurd h.symm h0⟩

/-- No use of a removed constant is left, and what takes its place is not removed itself. -/
theorem no_dangling (l : List Inst) (ok : Ok l) :
    (∀ x ∈ (unify l).insts, ∀ j, .ref j ∈ x.opds → (unify l).repl j = j) ∧
    ∀ i, (unify l).repl ((unify l).repl i) = (unify l).repl i :=
  go_uses l [] ok _ _ _ _ _ start fun _ => rfl

theorem go_modified (l : List Inst) (s : Nat → Nat) (t : Trie) (m : Bool) :
    ((go l s t m).modified = true ↔ m = true ∨ (go l s t m).insts.length < l.length) ∧
    (go l s t m).insts.length ≤ l.length := by
  induction l generalizing s t m with
  | nil => simp [go]
  | cons x l ih =>
    rcases go_cases x l s t m with ⟨t', e, h1, h2⟩ | ⟨t', r, e, hd, hu, hrx, hr0, hr, hk⟩
    · rw [e]
      obtain ⟨i1, i2⟩ := ih s t' m
      simp only [List.length_cons, i1, Nat.add_lt_add_iff_right, Nat.add_le_add_iff_right]
      exact ⟨trivial, i2⟩
    · rw [e]
      obtain ⟨i1, i2⟩ := ih (fun i => if i = x.id then r else s i) t' true
      simp only [List.length_cons, i1]
      exact ⟨by simp; omega, by omega⟩

/-- A change is reported exactly when a constant was removed. -/
theorem report_exact (l : List Inst) :
    (unify l).modified = true ↔ (unify l).insts.length < l.length := by
  have := (go_modified l (fun i => i) (.node 0 .nil) false).1
  simpa [unify] using this

/-! ### Example -/

/-- 2 and 3 are the same constant, 4 and 5 composites of them, 6 is decorated, 8 and 9 are
specialization constants with numbers. -/
def sample : List Inst :=
  [⟨21, 1, [.lit 32, .lit 0], false⟩, ⟨43, 2, [.ref 1, .lit 7], false⟩, ⟨43, 3, [.ref 1, .lit 7], false⟩,
   ⟨44, 4, [.ref 1, .ref 2, .ref 3], false⟩, ⟨44, 5, [.ref 1, .ref 3, .ref 2], false⟩,
   ⟨43, 6, [.ref 1, .lit 7], true⟩, ⟨50, 8, [.ref 1, .lit 7], false⟩, ⟨50, 9, [.ref 1, .lit 7], false⟩]

example : (unify sample).insts =
    [⟨21, 1, [.lit 32, .lit 0], false⟩, ⟨43, 2, [.ref 1, .lit 7], false⟩,
     ⟨44, 4, [.ref 1, .ref 2, .ref 2], false⟩, ⟨43, 6, [.ref 1, .lit 7], true⟩,
     ⟨50, 8, [.ref 1, .lit 7], false⟩, ⟨50, 9, [.ref 1, .lit 7], false⟩] ∧
    (unify sample).repl 5 = 4 ∧ (unify sample).repl 3 = 2 ∧ (unify sample).modified = true := by decide

theorem split_index {l a b : List Inst} {x : Inst} (h : l = a ++ x :: b) :
    l[a.length]? = some x ∧ x :: b = l.drop a.length ∧ a.length < l.length := by
  subst h; simp

theorem sample_ok : Ok sample where
  nonzero := by decide
  once := by decide
  before := by
    intro a x b h hu i hi y hy
    obtain ⟨h1, h2, h3⟩ := split_index h
    rw [h2] at hy
    have key : ∀ n < sample.length, ∀ x ∈ sample[n]?, ∀ y ∈ sample.drop n, ∀ o ∈ x.opds,
        unifiable x.op = true → o ≠ .ref y.id := by decide
    intro e
    exact key a.length h3 x h1 y hy _ hi hu (by rw [e])
  noForward := by
    intro a x b h i hi y hy hu
    obtain ⟨h1, h2, h3⟩ := split_index h
    rw [h2] at hy
    have key : ∀ n < sample.length, ∀ x ∈ sample[n]?, ∀ y ∈ sample.drop n, ∀ o ∈ x.opds,
        unifiable y.op = true → o ≠ .ref y.id := by decide
    intro e
    exact key a.length h3 x h1 y hy _ hi hu (by rw [e])
  grammar := by
    have key : ∀ x ∈ sample, ∀ y ∈ sample, unifiable x.op = true → x.op = y.op →
      x.opds.length = y.opds.length → x.opds.map isRef = y.opds.map isRef := by decide
    exact fun x hx y hy h1 h2 h3 _ => key x hx y hy h1 h2 h3

/-- The assumption on specialization constants is needed: taken for unifiable they would be
merged. Here they stay apart, although opcode and operands are the same. -/
example : ∃ x ∈ (unify sample).insts, x.id = 9 :=
  others_kept sample sample_ok ⟨50, 9, [.ref 1, .lit 7], false⟩ (by decide) (by simp [Eligible, unifiable])

end Verif.UnifyConst
