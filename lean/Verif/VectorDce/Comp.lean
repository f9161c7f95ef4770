import Verif.VectorDce.Live
set_option linter.unusedSimpArgs false
set_option linter.unusedVariables false
set_option linter.unusedSectionVars false
/-!
# Live components depend on live components only
-/
namespace Verif.VectorDce
open Verif.SsaExec Verif.VectorDce.Spec
variable {I B X M : Type} [DecidableEq I] {f : Func I B} {S : Base I B X M} {live : I → Option Nat}

/-- Component `k` of `d` must be kept. -/
def L (f : Func I B) (live : I → Option Nat) (d : I) (k : Nat) : Prop :=
  match f.shape d with
  | .other => True
  | .scalar => k = 0 ∧ ∃ b, live d = some b ∧ b.testBit 0
  | .vec _ => ∃ b, live d = some b ∧ b.testBit k

inductive Agree (f : Func I B) (live : I → Option Nat) : List I → List (Nat → X) → List (Nat → X) → Prop where
  | nil : Agree f live [] [] []
  | cons {d ds v vs w ws} : (∀ k, L f live d k → v k = w k) → Agree f live ds vs ws →
      Agree f live (d :: ds) (v :: vs) (w :: ws)

/-- All the components of these are live. -/
def Full (f : Func I B) (live : I → Option Nat) (ds : List I) : Prop :=
  ∀ d ∈ ds, ∀ k, Has (f.shape d) k → L f live d k

theorem Agree.same {ds : List I} {a a' : List (Nat → X)} (h : Agree f live ds a a') (hf : Full f live ds) :
    Same f ds a a' := by
  induction h with
  | nil => exact .nil
  | cons h1 _ ih =>
    exact .cons (fun k hk => h1 k (hf _ (by simp) k hk)) (ih fun d hd => hf d (by simp [hd]))

theorem covers_L {d b k} (h : Covers live d b) (hb : b.testBit k) (hk : f.shape d = .scalar → k = 0) : L f live d k := by
  obtain ⟨b', h1, h2⟩ := h
  unfold L
  split
  · trivial
  · next hs =>
    have := hk hs
    subst this
    exact ⟨rfl, b', h1, h2 _ hb⟩
  · exact ⟨b', h1, h2 _ hb⟩

theorem markUses_full (hT : Typed f) {i} (h : ∀ it ∈ f.markUses i allLive, Covers live it.1 it.2) :
    Full f live (f.uses i) := by
  intro d hd k hk
  cases hs : f.shape d with
  | other => simp [L, hs]
  | scalar =>
    rw [hs] at hk
    simp only [Has] at hk
    subst hk
    exact covers_L (h (d, 1) (by simp only [Func.markUses, List.mem_filterMap]; exact ⟨d, hd, by simp [hs]⟩)) (by simp [testBit_one]) (fun _ => rfl)
  | vec n =>
    rw [hs] at hk
    simp only [Has] at hk
    have := hT.small d n hs
    exact covers_L (h (d, allLive) (by simp only [Func.markUses, List.mem_filterMap]; exact ⟨d, hd, by simp [hs]⟩))
      (by simp [testBit_allLive]; omega) (by simp [hs])

theorem Full.ops {i} (h : Full f live (f.uses i)) : Full f live (f.ops i) :=
  fun d hd => h d (by simp [Func.uses, hd])

theorem root_full (hT : Typed f) (hc : Closed f live) {i} (hi : i ∈ f.insts) (hr : f.root i) :
    Full f live (f.uses i) := markUses_full hT (hc.roots i hi hr)

/-- Why a component is live. -/
theorem L_why (hT : Typed f) (hc : Closed f live) {i k} (hi : i ∈ f.insts) (hL : L f live i k) :
    (f.shape i = .other ∧ Full f live (f.uses i)) ∨
    (f.shape i ≠ .other ∧ (f.shape i = .scalar → k = 0) ∧ ∃ c, c.testBit k ∧ Done f live i c) := by
  cases hs : f.shape i with
  | other => exact .inl ⟨rfl, root_full hT hc hi (by simp [Func.root, Func.tracked, hs])⟩
  | scalar =>
    rw [L, hs] at hL
    obtain ⟨rfl, b, hb, hk⟩ := hL
    exact .inr ⟨by simp, by simp, hc.bits i b 0 hb hk⟩
  | vec n =>
    rw [L, hs] at hL
    obtain ⟨b, hb, hk⟩ := hL
    exact .inr ⟨by simp, by simp, hc.bits i b k hb hk⟩

theorem testBit_slice (live k : Nat) : ∀ n j, (slice live k n).testBit j = (decide (j < n) && live.testBit (k + j)) := by
  intro n
  induction n with
  | zero => intro j; simp [slice]
  | succ n ih =>
    intro j
    rw [slice, Nat.testBit_or, ih]
    by_cases hj : j = n
    · subst hj
      by_cases h : live.testBit (k + j) <;> simp [h, Nat.testBit_two_pow]
    · have : (if live.testBit (k + n) then 2 ^ n else 0 : Nat).testBit j = false := by
        split
        · simp [Nat.testBit_two_pow]; omega
        · simp
      rw [this]
      have : decide (j < n + 1) = decide (j < n) := by
        by_cases h : j < n
        · simp [h]; omega
        · simp [h]; omega
      simp [this]

theorem shuffleUses_bits (n1 n2 live : Nat) : ∀ (idx : List Nat) (k0 k n : Nat), idx[k]? = some n → live.testBit (k0 + k) →
    (n < n1 → (shuffleUses n1 n2 live idx k0).1.testBit n) ∧
    (¬ n < n1 → n - n1 < n2 → (shuffleUses n1 n2 live idx k0).2.testBit (n - n1)) := by
  intro idx
  induction idx with
  | nil => intro k0 k n h; simp at h
  | cons m idx ih =>
    intro k0 k n h hb
    rw [shuffleUses]
    cases k with
    | zero =>
      simp at h
      subst h
      simp only [Nat.add_zero] at hb
      simp only [hb, if_true]
      constructor
      · intro h1
        simp [h1, Nat.testBit_or, Nat.testBit_two_pow]
      · intro h1 h2
        simp [h1, h2, Nat.testBit_or, Nat.testBit_two_pow]
    | succ k =>
      simp at h
      obtain ⟨h1, h2⟩ := ih (k0 + 1) k n h (by rw [← hb]; congr 1; omega)
      constructor
      · intro h3
        have := h1 h3
        split
        · split
          · simp [Nat.testBit_or, this]
          · split <;> simp [this]
        · exact this
      · intro h3 h4
        have := h2 h3 h4
        split
        · split
          · simp [this]
          · split <;> simp [Nat.testBit_or, this]
        · exact this

theorem piece_eq {c : Nat} : ∀ (ds : List I) (vs ws : List (Nat → X)) (k0 k : Nat), Agree f live ds vs ws →
    (∀ it ∈ f.markConstruct c ds k0, Covers live it.1 it.2) → c.testBit (k0 + k) →
    piece f ds vs k = piece f ds ws k := by
  intro ds
  induction ds with
  | nil => intro vs ws k0 k h; cases h; simp [piece]
  | cons d ds ih =>
    intro vs ws k0 k h hm hb
    cases h with
    | @cons _ _ v vs w ws h1 h2 =>
      rw [piece, piece]
      rw [Func.markConstruct] at hm
      cases hs : f.shape d with
      | scalar =>
        rw [hs] at hm
        simp only [List.mem_cons, forall_eq_or_imp] at hm
        simp only
        split
        · next hk =>
          subst hk
          simp only [Nat.add_zero] at hb
          rw [h1 0]
          exact covers_L hm.1 (by simp [hb, testBit_one]) (fun _ => rfl)
        · exact ih vs ws (k0 + 1) (k - 1) h2 hm.2 (by rw [← hb]; congr 1; omega)
      | vec n =>
        rw [hs] at hm
        have hn : f.count d = n := by simp [Func.count, hs]
        simp only [hn, List.mem_cons, forall_eq_or_imp] at hm
        simp only
        split
        · next hk =>
          rw [h1 k]
          exact covers_L hm.1 (by rw [testBit_slice, hb]; simp [hk]) (by simp [hs])
        · exact ih vs ws (k0 + n) (k - n) h2 hm.2 (by rw [← hb]; congr 1; omega)
      | other => simp

theorem lanesOf_eq {k : Nat} : ∀ (ds : List I) (vs ws : List (Nat → X)), Agree f live ds vs ws →
    (∀ d ∈ ds, L f live d (if f.shape d = .scalar then 0 else k)) → lanesOf f k ds vs = lanesOf f k ds ws := by
  intro ds
  induction ds with
  | nil => intro vs ws h _; cases h; rfl
  | cons d ds ih =>
    intro vs ws h hl
    cases h with
    | @cons _ _ v vs w ws h1 h2 =>
      rw [lanesOf, lanesOf, ih vs ws h2 fun d hd => hl d (by simp [hd])]
      have := hl d (by simp)
      congr 1
      split
      · next hs => simp only [hs, if_true] at this; exact h1 0 this
      · next hs => simp only [hs, if_false] at this; exact h1 k this

theorem lanes_L {i c k} (hd : ∀ it ∈ f.markUses i c, Covers live it.1 it.2) (hb : c.testBit k) :
    ∀ d ∈ f.uses i, L f live d (if f.shape d = .scalar then 0 else k) := by
  intro d hdm
  cases hs : f.shape d with
  | other => simp [L, hs]
  | scalar =>
    simp only [if_true]
    exact covers_L (hd (d, 1) (by simp only [Func.markUses, List.mem_filterMap]; exact ⟨d, hdm, by simp [hs]⟩)) (by simp [testBit_one]) (fun _ => rfl)
  | vec n =>
    simp only [reduceCtorEq, if_false]
    exact covers_L (hd (d, c) (by simp only [Func.markUses, List.mem_filterMap]; exact ⟨d, hdm, by simp [hs]⟩)) hb (by simp [hs])

theorem comp_eq (hT : Typed f) (hD : Depends f S) (hc : Closed f live) {i k} (hi : i ∈ f.insts) (hL : L f live i k)
    {a a' : List (Nat → X)} (ha : Agree f live (f.ops i) a a') (m : M) : comp f S i a m k = comp f S i a' m k := by
  have hw := L_why hT hc hi hL
  have hpure : Full f live (f.ops i) → S.pure i a = S.pure i a' := fun h => hD.pure i a a' (ha.same h)
  have hother : f.shape i = .other → Full f live (f.ops i) := by
    intro hs
    rcases hw with ⟨-, h⟩ | ⟨h, -⟩
    · exact h.ops
    · exact absurd hs h
  cases hk : f.kind i with
  | extract idx =>
    obtain ⟨c, ho⟩ := hT.extract i idx hk
    rw [ho] at ha
    cases ha with
    | @cons _ _ v _ w _ h1 h2 =>
    cases h2
    cases idx with
    | nil =>
      simp only [comp, hk, ho]
      rw [h1 k]
      have hs := hT.extract_none i c hk ho
      rcases hw with ⟨h3, -⟩ | ⟨h3, h4, c0, h5, h6⟩
      · simp [L, hs, h3]
      · refine covers_L (h6 (c, c0) ?_) h5 (fun h => h4 (hs ▸ h))
        simp [Func.mark, hk, Func.markExtract, ho, Func.tracked, hs, h3]
    | cons j idx =>
      simp only [comp, hk, ho]
      cases hs : f.shape c with
      | scalar => exact absurd hs (hT.extract_some i c j idx hk ho)
      | other =>
        simp only
        rw [hpure]
        rw [ho]
        intro d hd k _
        simp at hd
        subst hd
        simp [L, hs]
      | vec n =>
        simp only
        split
        · next hj =>
          rw [h1 j]
          rcases hw with ⟨h3, h4⟩ | ⟨h3, h4, c0, h5, h6⟩
          · exact h4 c (by simp [Func.uses, ho]) j (by simp [hs, Has, hj])
          · refine covers_L (b := 2 ^ j) (h6 (c, 2 ^ j) ?_) (by simp [Nat.testBit_two_pow]) (by simp [hs])
            simp [Func.mark, hk, Func.markExtract, ho, Func.tracked, hs, Func.count, hj]
        · rfl
  | insert idx =>
    obtain ⟨o, c, ho, hsc, hso, hsp⟩ := hT.insert i idx hk
    rw [ho] at ha
    cases ha with
    | @cons _ _ vo _ wo _ h1 h2 =>
    cases h2 with
    | @cons _ _ vc _ wc _ h2 h3 =>
    cases h3
    cases idx with
    | nil =>
      simp only [comp, hk, ho]
      rw [h1 k]
      have hs := hso rfl
      rcases hw with ⟨h3, -⟩ | ⟨h3, h4, c0, h5, h6⟩
      · simp [L, hs, h3]
      · refine covers_L (h6 (o, c0) ?_) h5 (fun h => h4 (hs ▸ h))
        simp [Func.mark, hk, Func.markInsert, ho]
    | cons p idx =>
      simp only [comp, hk, ho]
      cases hs : f.shape i with
      | scalar => exact absurd hs (hsp (by simp)).1
      | other => simp only; rw [hpure (hother hs)]
      | vec n =>
        simp only
        rcases hw with ⟨h3, -⟩ | ⟨h3, h4, c0, h5, h6⟩
        · simp [hs] at h3
        · split
          · next hkp =>
            subst hkp
            rw [h1 0]
            refine covers_L (b := 1) (h6 (o, 1) ?_) (by simp [testBit_one]) (fun _ => rfl)
            simp [Func.mark, hk, Func.markInsert, ho, h5]
          · next hkp =>
            rw [h2 k]
            refine covers_L (b := clear c0 p) (h6 (c, clear c0 p) ?_) (by rw [testBit_clear, h5]; simp [hkp]) (by simp [hsc, hs])
            simp [Func.mark, hk, Func.markInsert, ho]
  | shuffle idx =>
    obtain ⟨d, e, n1, n2, ho, hs1, hs2⟩ := hT.shuffle i idx hk
    rw [ho] at ha
    cases ha with
    | @cons _ _ v _ w _ h1 h2 =>
    cases h2 with
    | @cons _ _ v' _ w' _ h2 h3 =>
    cases h3
    simp only [comp, hk, ho]
    cases hn : idx[k]? with
    | none => rfl
    | some n =>
      simp only
      have hc1 : f.count d = n1 := by simp [Func.count, hs1]
      have hc2 : f.count e = n2 := by simp [Func.count, hs2]
      have key : (n < n1 → L f live d n) ∧ (¬ n < n1 → n - n1 < n2 → L f live e (n - n1)) := by
        rcases hw with ⟨h3, h4⟩ | ⟨h3, h4, c0, h5, h6⟩
        · exact ⟨fun h => h4 d (by simp [Func.uses, ho]) n (by simp [hs1, Has, h]),
            fun _ h => h4 e (by simp [Func.uses, ho]) _ (by simp [hs2, Has, h])⟩
        · obtain ⟨h7, h8⟩ := shuffleUses_bits n1 n2 c0 idx 0 k n hn (by simpa using h5)
          constructor
          · intro h
            refine covers_L (h6 (d, (shuffleUses n1 n2 c0 idx 0).1) ?_) (h7 h) (by simp [hs1])
            simp [Func.mark, hk, Func.markShuffle, ho, hc1, hc2]
          · intro h h'
            refine covers_L (h6 (e, (shuffleUses n1 n2 c0 idx 0).2) ?_) (h8 h h') (by simp [hs2])
            simp [Func.mark, hk, Func.markShuffle, ho, hc1, hc2]
      rw [hc1, hc2]
      split
      · next h => rw [h1 n (key.1 h)]
      · next h =>
        split
        · next h' => rw [h2 _ (key.2 h h')]
        · rfl
  | construct =>
    simp only [comp, hk]
    cases hs : f.shape i with
    | scalar => exact absurd hs (hT.construct_kind i hk)
    | other => simp only; rw [hpure (hother hs)]
    | vec n =>
      simp only
      rcases hw with ⟨h3, -⟩ | ⟨h3, h4, c0, h5, h6⟩
      · simp [hs] at h3
      · refine piece_eq _ _ _ 0 k ha ?_ (by simpa using h5)
        intro it hit
        exact h6 it (by simpa [Func.mark, hk] using hit)
  | lanes =>
    simp only [comp, hk]
    by_cases hs : f.shape i = .other
    · simp only [hs]; rw [hpure (hother hs)]
    · rcases hw with ⟨h3, -⟩ | ⟨h3, h4, c0, h5, h6⟩
      · exact absurd h3 hs
      · have := lanes_L (i := i) (c := c0) (k := k) (fun it hit => h6 it (by simpa [Func.mark, hk] using hit)) h5
        rw [lanesOf_eq _ _ _ ha fun d hd => this d (by simp [Func.uses, hd])]
        cases hs' : f.shape i with
        | other => exact absurd hs' hs
        | scalar => rfl
        | vec n => rfl
  | plain =>
    simp only [comp, hk]
    rw [hpure]
    rcases hw with ⟨h3, h4⟩ | ⟨h3, h4, c0, h5, h6⟩
    · exact h4.ops
    · exact (markUses_full hT fun it hit => h6 it (by simpa [Func.mark, hk] using hit)).ops

/-- An insertion of the only live component depends on the object only. -/
theorem comp_cut (hT : Typed f) (hc : Closed f live) {i k p idx b} (hi : i ∈ f.insts) (hL : L f live i k)
    (hk : f.kind i = .insert (p :: idx)) (hb : live i = some b) (h0 : clear b p = 0) {o c : I}
    (ho : f.ops i = [o, c]) {v w u u' : Nat → X} (hv : ∀ k, L f live o k → v k = w k) (m : M) :
    comp f S i [v, u] m k = comp f S i [w, u'] m k := by
  have htr := hc.tracked i b hb
  obtain ⟨o', c', ho', hsc, hso, hsp⟩ := hT.insert i _ hk
  rw [ho] at ho'
  cases ho'
  simp only [comp, hk, ho]
  cases hs : f.shape i with
  | scalar => exact absurd hs (hsp (by simp)).1
  | other => simp [Func.tracked, hs] at htr
  | vec n =>
    have hkb : b.testBit k := by
      rw [L, hs] at hL
      obtain ⟨b', h1, h2⟩ := hL
      rw [hb] at h1
      cases h1
      exact h2
    have hkp : k = p := by
      have h3 := testBit_clear b p k
      rw [h0, hkb] at h3
      simpa using h3.symm
    subst hkp
    simp only [if_true]
    rw [hv 0]
    obtain ⟨c0, h5, h6⟩ := hc.bits i b k hb hkb
    refine covers_L (b := 1) (h6 (o, 1) ?_) (by simp [testBit_one]) (fun _ => rfl)
    simp [Func.mark, hk, Func.markInsert, ho, h5]

end Verif.VectorDce
