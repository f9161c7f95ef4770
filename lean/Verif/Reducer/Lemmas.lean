import Verif.Reducer.Model
set_option linter.unusedSimpArgs false
set_option linter.unusedVariables false

namespace Verif.Reducer
variable {β : Type}

namespace Spec
/-- `Derives c fs a b`: `b` is obtained from `a` by a chain of binaries, each of which is
the result of applying a contiguous chunk of opportunities of one of the finders `fs` to
the previous one, is valid, and was judged interesting at attempt number `k ≥ 1`. -/
inductive Derives (c : Config β) (fs : List (Finder β)) : β → β → Prop
  | refl (a) : Derives c fs a a
  | step {a b} (f : Finder β) (lo hi k : Nat) : Derives c fs a b → f ∈ fs → lo < hi →
      hi ≤ f.count b → 0 < k → c.valid (f.apply b lo hi) = true →
      c.interesting (f.apply b lo hi) k = true → Derives c fs a (f.apply b lo hi)

/-- No opportunity of `f`, applied alone to `b`, gives a binary that is valid and
interesting at every attempt number: each was tried and found invalid or uninteresting. -/
def Minimal (c : Config β) (f : Finder β) (b : β) : Prop :=
  ∀ j < f.count b, c.valid (f.apply b j (j + 1)) = true →
    ∃ k, c.interesting (f.apply b j (j + 1)) k = false
end Spec

theorem Spec.Derives.trans {c : Config β} {fs : List (Finder β)} {a b d : β}
    (h1 : Spec.Derives c fs a b) (h2 : Spec.Derives c fs b d) : Spec.Derives c fs a d := by
  induction h2 with
  | refl => exact h1
  | step f lo hi k _ hf hl hh hk hv hin ih => exact .step f lo hi k ih hf hl hh hk hv hin

theorem Spec.Derives.mono {c : Config β} {fs gs : List (Finder β)} {a b : β}
    (hs : ∀ f ∈ fs, f ∈ gs) (h2 : Spec.Derives c fs a b) : Spec.Derives c gs a b := by
  induction h2 with
  | refl => exact .refl _
  | step f lo hi k _ hf hl hh hk hv hin ih => exact .step f lo hi k ih (hs f hf) hl hh hk hv hin

/-- A derived binary is the start or is valid and interesting. -/
theorem Spec.Derives.good {c : Config β} {fs : List (Finder β)} {a b : β}
    (h : Spec.Derives c fs a b) (hv : c.valid a = true) (hi : ∃ k, c.interesting a k = true) :
    c.valid b = true ∧ ∃ k, c.interesting b k = true := by
  cases h with
  | refl => exact ⟨hv, hi⟩
  | step f lo hi k _ hf hl hh hk hv hi => exact ⟨hv, k, hi⟩

theorem tryApply_none {f : Finder β} {s s' : PassState} {b : β}
    (h : tryApply f s b = (s', none)) :
    f.count b ≤ s.index ∧ s'.index = 0 ∧ 0 < s'.gran ∧ (0 < s.gran → s'.gran ≤ s.gran) ∧
      (1 < s.gran → s'.gran < s.gran) := by
  unfold tryApply at h
  simp only at h
  split at h
  · simp only [Prod.mk.injEq, and_true] at h
    subst h
    refine ⟨by omega, rfl, ?_⟩
    simp only
    generalize hg : (if s.gran > f.count b then max 1 (f.count b) else s.gran) = g
    have : 0 < s.gran → g ≤ s.gran := by rw [← hg]; split <;> omega
    omega
  · simp at h

theorem tryApply_some {f : Finder β} {s s' : PassState} {b r : β} (hs : 0 < s.gran)
    (h : tryApply f s b = (s', some r)) :
    s.index < f.count b ∧ s'.index = s.index ∧ 0 < s'.gran ∧ s'.gran ≤ s.gran ∧
      ∃ hi, r = f.apply b s.index hi ∧ s.index < hi ∧ hi ≤ f.count b ∧
        (s.gran = 1 → hi = s.index + 1) := by
  unfold tryApply at h
  simp only at h
  split at h
  · simp at h
  · simp only [Prod.mk.injEq, Option.some.injEq] at h
    obtain ⟨h1, h2⟩ := h
    subst h1 h2
    generalize hg : (if s.gran > f.count b then max 1 (f.count b) else s.gran) = g
    have h3 : g ≤ s.gran ∧ 0 < g := by rw [← hg]; split <;> omega
    refine ⟨by omega, rfl, h3.2, h3.1, _, rfl, by omega, by omega, by omega⟩

/-- Everything needed about the loop of one pass. -/
theorem passLoop_spec (c : Config β) (f : Finder β) (s : PassState) (st : St β)
    (hs : 0 < s.gran) :
    match passLoop c f s st with
    | .invalid b a => c.failOnInvalid = true ∧ c.valid b = false ∧ st.applied < a ∧
        (st.applied < c.limit → a ≤ c.limit) ∧ (c.limit ≤ st.applied → a = st.applied + 1)
    | .ok (s', st') =>
      Spec.Derives c [f] st.cur st'.cur ∧
      st.applied ≤ st'.applied ∧ (st.applied < c.limit → st'.applied ≤ c.limit) ∧
      (c.limit ≤ st.applied → st'.applied ≤ st.applied + 1) ∧
      0 < s'.gran ∧ s'.gran ≤ s.gran ∧
      (st'.applied = st.applied → 1 < s.gran → s'.gran < s.gran) ∧
      (st'.applied < c.limit → s'.index = 0) ∧
      (st.worth = true → st'.worth = true) ∧
      (st'.worth = false → st'.cur = st.cur ∧
        (s.gran = 1 → st'.applied < c.limit → ∀ j, s.index ≤ j → j < f.count st.cur →
          c.valid (f.apply st.cur j (j + 1)) = true →
          ∃ k, c.interesting (f.apply st.cur j (j + 1)) k = false)) := by
  fun_induction passLoop c f s st with
  | case1 s st s' h =>
    obtain ⟨h1, h2, h3, h4, h5⟩ := tryApply_none h
    simp only
    refine ⟨.refl _, Nat.le_refl _, fun h => Nat.le_of_lt h, fun h => by omega, h3, h4 hs,
      fun _ => h5, fun _ => h2, id, fun hw => ⟨by trivial, fun _ _ j hj1 hj2 => by omega⟩⟩
  | case2 s st s' r h applied hb =>
    obtain ⟨h1, h2, h3, h4, hi, h5, h6, h7, h8⟩ := tryApply_some hs h
    simp only [Bool.and_eq_true, Bool.not_eq_true'] at hb
    simp only [applied]
    exact ⟨hb.2, hb.1, by omega, fun h => by omega, fun h => by trivial⟩
  | case3 s st s' r h applied hb good st' s'' hl =>
    obtain ⟨h1, h2, h3, h4, hi, h5, h6, h7, h8⟩ := tryApply_some hs h
    have ha : st'.applied = st.applied + 1 := by simp only [st', applied]; split <;> rfl
    have hl' : c.limit ≤ st.applied + 1 := hl
    have hsg : s''.gran = s'.gran := by simp only [s'', notify]; split <;> rfl
    simp only
    refine ⟨?_, by omega, fun h => by omega, fun h => by omega, by omega, by omega,
      fun h => by omega, fun h => by omega, ?_, fun hw => ⟨?_, fun _ h => by omega⟩⟩
    · simp only [st']
      split
      · next hg =>
        simp only [good, Bool.and_eq_true] at hg
        subst h5
        exact .step f _ _ applied (.refl _) (by simp) h6 h7 (by simp [applied]) hg.1 hg.2
      · exact .refl _
    · simp only [st']; split <;> simp
    · revert hw; simp only [st']; split <;> simp
  | case4 s st s' r h applied hb good st' s'' hl ih =>
    obtain ⟨h1, h2, h3, h4, hi, h5, h6, h7, h8⟩ := tryApply_some hs h
    have ha : st'.applied = st.applied + 1 := by simp only [st', applied]; split <;> rfl
    have hl' : ¬ c.limit ≤ st.applied + 1 := hl
    have hsg : s''.gran = s'.gran := by simp only [s'', notify]; split <;> rfl
    have hder : Spec.Derives c [f] st.cur st'.cur := by
      simp only [st']
      split
      · next hg =>
        simp only [good, Bool.and_eq_true] at hg
        subst h5
        exact .step f _ _ applied (.refl _) (by simp) h6 h7 (by simp [applied]) hg.1 hg.2
      · exact .refl _
    have hw : (st.worth = true → st'.worth = true) ∧
        (st'.worth = false → st'.cur = st.cur ∧ good = false) := by
      simp only [st']; split <;> simp_all
    clear_value st'
    have ih := ih (by omega)
    generalize passLoop c f s'' st' = o at ih ⊢
    match o, ih with
    | .invalid b a, ih =>
      simp only at ih ⊢
      exact ⟨ih.1, ih.2.1, by omega, fun h => ih.2.2.2.1 (by omega), fun h => by omega⟩
    | .ok (t, st2), ⟨i1, i2, i3, i4, i5, i6, i7, i8, i9, i10⟩ =>
      simp only
      refine ⟨hder.trans i1, by omega, fun h => i3 (by omega), fun h => by omega, i5, by omega,
        fun h => by omega, i8, fun h => i9 (hw.1 h), fun h => ?_⟩
      obtain ⟨j1, j2⟩ := i10 h
      have hwf : st'.worth = false := by
        cases h' : st'.worth
        · rfl
        · rw [i9 h'] at h; exact absurd h (by simp)
      obtain ⟨k1, k2⟩ := hw.2 hwf
      refine ⟨j1.trans k1, fun hg1 hlim j hj1 hj2 hv => ?_⟩
      have hgr : s'.gran = 1 := by omega
      have hidx : s''.index = s.index + 1 := by
        simp only [s'', notify, k2, Bool.false_eq_true, if_false, h2, hgr]
      rw [k1] at j2
      by_cases hje : j = s.index
      · subst hje
        rw [h8 hg1] at h5
        subst h5
        simp only [good, Bool.and_eq_false_iff] at k2
        rcases k2 with k2 | k2
        · rw [k2] at hv; exact absurd hv (by simp)
        · exact ⟨applied, k2⟩
      · exact j2 (by omega) hlim j (by omega) hj2 hv

def granSum : List (Finder β × PassState) → Nat
  | [] => 0
  | p :: ps => p.2.gran + granSum ps

theorem round_spec (c : Config β) (ps : List (Finder β × PassState)) (st : St β)
    (hs : ∀ p ∈ ps, 0 < p.2.gran) :
    match round c ps st with
    | .invalid b a => c.failOnInvalid = true ∧ c.valid b = false ∧
        (st.applied < c.limit → a < c.limit + ps.length) ∧
        (c.limit ≤ st.applied → a ≤ st.applied + ps.length)
    | .ok (ps', st') =>
      Spec.Derives c (ps.map (·.1)) st.cur st'.cur ∧
      ps'.map (·.1) = ps.map (·.1) ∧
      st.applied ≤ st'.applied ∧ (st.applied < c.limit → st'.applied ≤ c.limit + (ps.length - 1)) ∧
      (c.limit ≤ st.applied → st'.applied ≤ st.applied + ps.length) ∧
      (∀ p ∈ ps', 0 < p.2.gran) ∧
      granSum ps' ≤ granSum ps ∧
      (st'.applied = st.applied → st.worth = false → st'.worth = true → st'.applied < c.limit →
        granSum ps' < granSum ps) ∧
      (st'.applied < c.limit → ∀ p ∈ ps', p.2.index = 0) ∧
      (st.worth = true → st'.worth = true) ∧
      (st'.worth = false → st'.cur = st.cur ∧
        ((∀ p ∈ ps, p.2.index = 0) → st'.applied < c.limit → ∀ p ∈ ps, Spec.Minimal c p.1 st.cur)) := by
  induction ps generalizing st with
  | nil =>
    simp only [round]
    refine ⟨.refl _, by trivial, Nat.le_refl _, fun h => by omega, fun h => by simp, by simp,
      Nat.le_refl _, fun _ h1 h2 => by simp_all, by simp, id, fun _ => ⟨by trivial, by simp⟩⟩
  | cons p ps ih =>
    obtain ⟨f, s⟩ := p
    have hs0 : 0 < s.gran := hs _ (List.mem_cons_self ..)
    have hp := passLoop_spec c f s { st with worth := st.worth || decide (s.gran ≠ 1) } hs0
    simp only [round]
    generalize hq : passLoop c f s { st with worth := st.worth || decide (s.gran ≠ 1) } = o at hp ⊢
    match o, hp with
    | .invalid b a, hp =>
      simp only [List.length_cons] at hp ⊢
      exact ⟨hp.1, hp.2.1, fun h => by have := hp.2.2.2.1 h; omega,
        fun h => by have := hp.2.2.2.2 h; omega⟩
    | .ok (s', st1), ⟨i1, i2, i3, i4, i5, i6, i7, i8, i9, i10⟩ =>
      simp only at i1 i2 i3 i4 i5 i6 i7 i8 i9 i10 ⊢
      have ih := ih st1 (fun p hp => hs p (List.mem_cons_of_mem _ hp))
      generalize hq2 : round c ps st1 = o2 at ih ⊢
      match o2, ih with
      | .invalid b a, ih =>
        simp only [List.length_cons] at ih ⊢
        refine ⟨ih.1, ih.2.1, fun h => ?_, fun h => ?_⟩
        · have := i3 h
          by_cases h1 : st1.applied < c.limit
          · have := ih.2.2.1 h1; omega
          · have := ih.2.2.2 (by omega); omega
        · have := i4 h
          have := ih.2.2.2 (by omega); omega
      | .ok (ps', st2), ⟨j1, j2, j3, j4, j5, j6, j7, j8, j9, j10, j11⟩ =>
        simp only at j1 j2 j3 j4 j5 j6 j7 j8 j9 j10 j11 ⊢
        refine ⟨?_, by simp [j2], by omega, fun h => ?_, fun h => ?_, ?_, ?_, ?_, ?_, ?_, ?_⟩
        · exact (i1.mono (by simp)).trans (j1.mono (by intro g hg; exact List.mem_cons_of_mem _ hg))
        · have := i3 h
          simp only [List.length_cons]
          by_cases h1 : st1.applied < c.limit
          · have := j4 h1; omega
          · have := j5 (by omega); omega
        · have := i4 h
          have := j5 (by omega)
          simp only [List.length_cons]; omega
        · intro p hp
          rcases List.mem_cons.1 hp with rfl | hp
          · exact i5
          · exact j6 p hp
        · simp only [granSum]; omega
        · intro h1 h2 h3 h4
          simp only [granSum]
          have e1 : st1.applied = st.applied := by omega
          by_cases hg : 1 < s.gran
          · have := i7 e1 hg; omega
          · cases hw : st1.worth
            · have := j8 (by omega) hw h3 h4; omega
            · -- worth became true without an attempt: impossible
              exfalso
              have hp1 := passLoop_spec c f s { st with worth := st.worth || decide (s.gran ≠ 1) } hs0
              have hg1 : s.gran = 1 := by omega
              unfold passLoop at hq
              split at hq
              · simp only [Out.ok.injEq, Prod.mk.injEq] at hq
                rw [← hq.2] at hw
                simp [h2, hg1] at hw
              · simp only at hq
                split at hq
                · simp at hq
                · split at hq
                  · simp only [Out.ok.injEq, Prod.mk.injEq] at hq
                    have := congrArg St.applied hq.2
                    revert this
                    split <;> simp <;> omega
                  · next hlim =>
                    rename_i s0 r hta _
                    obtain ⟨a1, a2, a3, a4, hi, a5, a6, a7, a8⟩ := tryApply_some hs0 hta
                    have h := passLoop_spec c f (notify s0 (c.valid r && c.interesting r (st.applied + 1))) (if (c.valid r && c.interesting r (st.applied + 1)) = true then ⟨r, st.applied + 1, true⟩ else ⟨st.cur, st.applied + 1, st.worth || decide (s.gran ≠ 1)⟩) (by unfold notify; split <;> (try simp only) <;> omega)
                    rw [hq] at h
                    have h := h.2.1
                    revert h
                    split <;> simp <;> omega
        · intro h p hp
          rcases List.mem_cons.1 hp with rfl | hp
          · exact i8 (by omega)
          · exact j9 h p hp
        · intro h
          exact j10 (i9 (by simp [h]))
        · intro h
          obtain ⟨k1, k2⟩ := j11 h
          have hw1 : st1.worth = false := by
            cases h' : st1.worth
            · rfl
            · rw [j10 h'] at h; exact absurd h (by simp)
          obtain ⟨m1, m2⟩ := i10 hw1
          have hg1 : s.gran = 1 := by
            apply Classical.byContradiction
            intro hne
            have := i9 (by simp [hne])
            simp_all
          refine ⟨k1.trans m1, fun hidx hlim p hp => ?_⟩
          rcases List.mem_cons.1 hp with rfl | hp
          · intro j hj
            exact m2 hg1 (by omega) j (by have := hidx _ (List.mem_cons_self ..); simp only at this; omega) hj
          · have := k2 (fun p hp => hidx p (List.mem_cons_of_mem _ hp)) hlim p hp
            rwa [m1] at this

theorem runPasses_mono (c : Config β) : ∀ (n : Nat) (ps : List (Finder β × PassState)) (st : St β) r,
    runPasses c n ps st = some r → ∀ m ≥ n, runPasses c m ps st = some r := by
  intro n
  induction n with
  | zero => intro ps st r h; simp [runPasses] at h
  | succ n ih =>
    intro ps st r h m hm
    obtain ⟨m, rfl⟩ : ∃ m', m = m' + 1 := ⟨m - 1, by omega⟩
    simp only [runPasses] at h ⊢
    split
    · next hc =>
      rw [if_pos hc] at h
      split
      · next h2 => rw [h2] at h; exact h
      · next h2 => rw [h2] at h; exact ih _ _ _ h m (by omega)
    · next hc =>
      rw [if_neg hc] at h
      exact h

/-- `RunPasses` needs only finitely many rounds, whatever the finders, validator and
interestingness function do. -/
theorem runPasses_terminates (c : Config β) (ps : List (Finder β × PassState)) (st : St β)
    (hs : ∀ p ∈ ps, 0 < p.2.gran) :
    ∃ n r, runPasses c n ps st = some r := by
  -- lexicographic measure (limit - applied, Σ granularity)
  suffices H : ∀ a g, ∀ (ps : List (Finder β × PassState)) (st : St β),
      (∀ p ∈ ps, 0 < p.2.gran) → c.limit - st.applied = a → granSum ps = g →
      ∃ n r, runPasses c n ps st = some r from H _ _ ps st hs rfl rfl
  intro a
  induction a using Nat.strongRecOn with
  | _ a iha =>
  intro g
  induction g using Nat.strongRecOn with
  | _ g ihg =>
  intro ps st hs ha hg
  by_cases hc : st.applied < c.limit ∧ st.worth = true
  · have hr := round_spec c ps { st with worth := false } hs
    generalize hq : round c ps { st with worth := false } = o at hr
    match o, hr with
    | .invalid b a, _ => exact ⟨1, (.stateInvalid, b, a), by simp [runPasses, hc, hq]⟩
    | .ok (ps', st'), ⟨j1, j2, j3, j4, j5, j6, j7, j8, j9, j10, j11⟩ =>
      simp only at j1 j2 j3 j4 j5 j6 j7 j8 j9 j10 j11
      by_cases hstop : st'.applied < c.limit ∧ st'.worth = true
      · have : ∃ n r, runPasses c n ps' st' = some r := by
          by_cases he : st'.applied = st.applied
          · refine ihg (granSum ps') ?_ ps' st' j6 (by omega) rfl
            have := j8 he trivial hstop.2 hstop.1
            omega
          · exact iha (c.limit - st'.applied) (by omega) _ ps' st' j6 rfl rfl
        obtain ⟨n, r, h⟩ := this
        refine ⟨n + 1, r, ?_⟩
        simp only [runPasses, hc, and_self, if_true, hq, h]
      · by_cases hl : st'.applied ≥ c.limit
        · exact ⟨2, (.reachedStepLimit, st'.cur, st'.applied), by
            simp only [runPasses, hc, and_self, if_true, hq, hstop, hl, if_false]⟩
        · exact ⟨2, (.complete, st'.cur, st'.applied), by
            simp only [runPasses, hc, and_self, if_true, hq, hstop, hl, if_false]⟩
  · by_cases hl : st.applied ≥ c.limit
    · exact ⟨1, (.reachedStepLimit, st.cur, st.applied), by simp only [runPasses, hc, hl, if_false, if_true]⟩
    · exact ⟨1, (.complete, st.cur, st.applied), by simp only [runPasses, hc, hl, if_false, if_true]⟩

/-- Result of `RunPasses`. -/
theorem runPasses_spec (c : Config β) : ∀ (n : Nat) (ps : List (Finder β × PassState)) (st : St β)
    (status : Status) (out : β) (a : Nat),
    (∀ p ∈ ps, 0 < p.2.gran) → (st.applied < c.limit → ∀ p ∈ ps, p.2.index = 0) →
    runPasses c n ps st = some (status, out, a) →
    (status = .stateInvalid → c.failOnInvalid = true ∧ c.valid out = false) ∧
    (status ≠ .stateInvalid → Spec.Derives c (ps.map (·.1)) st.cur out) ∧
    (st.applied ≤ c.limit + (ps.length - 1) → a ≤ c.limit + (ps.length - 1)) ∧
    (status = .complete → a < c.limit) ∧
    (status = .complete → st.worth = true → ∀ p ∈ ps, Spec.Minimal c p.1 out) ∧
    (status = .reachedStepLimit → c.limit ≤ a) ∧
    (status = .stateInvalid ∨ status = .reachedStepLimit ∨ status = .complete) := by
  intro n
  induction n with
  | zero => intro ps st status out a _ _ h; simp [runPasses] at h
  | succ n ih =>
    intro ps st status out a hs hidx h
    simp only [runPasses] at h
    split at h
    · next hc =>
      have hr := round_spec c ps { st with worth := false } hs
      generalize hq : round c ps { st with worth := false } = o at hr h
      match o, hr, h with
      | .invalid b a', hr, h =>
        simp only [Option.some.injEq, Prod.mk.injEq] at h
        obtain ⟨rfl, rfl, rfl⟩ := h
        simp only at hr
        refine ⟨fun _ => ⟨hr.1, hr.2.1⟩, by simp, fun _ => ?_, by simp, by simp, by simp, by simp⟩
        have := hr.2.2.1 hc.1
        omega
      | .ok (ps', st'), ⟨j1, j2, j3, j4, j5, j6, j7, j8, j9, j10, j11⟩, h =>
        simp only at j1 j2 j3 j4 j5 j6 j7 j8 j9 j10 j11 h
        have hlen : ps'.length = ps.length := by simpa using congrArg List.length j2
        obtain ⟨i1, i2, i3, i4, i5, i6, i7⟩ := ih ps' st' status out a j6 j9 h
        refine ⟨i1, fun h => ?_, fun _ => ?_, i4, fun hst hw => ?_, i6, i7⟩
        · have := i2 h
          rw [j2] at this
          exact j1.trans this
        · have := i3 (by have := j4 hc.1; omega); omega
        · cases hw' : st'.worth
          · -- last round
            obtain ⟨k1, k2⟩ := j11 hw'
            cases n with
            | zero => simp [runPasses] at h
            | succ n =>
              simp only [runPasses, hw', Bool.false_eq_true, and_false, if_false] at h
              split at h
              · simp only [Option.some.injEq, Prod.mk.injEq] at h
                rw [← h.1] at hst; exact absurd hst (by simp)
              · next hl =>
                simp only [Option.some.injEq, Prod.mk.injEq] at h
                obtain ⟨-, rfl, rfl⟩ := h
                rw [k1]
                exact k2 (hidx hc.1) (by omega)
          · have := i5 hst hw'
            intro p hp
            have hm : p.1 ∈ ps.map (·.1) := List.mem_map_of_mem hp
            rw [← j2] at hm
            obtain ⟨q, hq1, hq2⟩ := List.mem_map.1 hm
            have := this q hq1
            rwa [hq2] at this
    · next hc =>
      split at h
      · next hl =>
        simp only [Option.some.injEq, Prod.mk.injEq] at h
        obtain ⟨rfl, rfl, rfl⟩ := h
        exact ⟨by simp, fun _ => .refl _, fun h => h, by simp, by simp, fun _ => hl, by simp⟩
      · next hl =>
        simp only [Option.some.injEq, Prod.mk.injEq] at h
        obtain ⟨rfl, rfl, rfl⟩ := h
        refine ⟨by simp, fun _ => .refl _, fun h => h, fun _ => by omega, fun _ hw => ?_, by simp, by simp⟩
        exact absurd ⟨by omega, hw⟩ hc

end Verif.Reducer
