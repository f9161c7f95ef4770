import Verif.LocalElim.Exec
set_option linter.unusedSimpArgs false
set_option linter.unusedVariables false
set_option linter.unusedSectionVars false
/-!
# Executions before and after the pass
-/
namespace Verif.LocalElim
open Verif.SsaExec Verif.LocalElim.Spec
variable {I B V R : Type} [DecidableEq I] {f : Func I B} {n : Nat} {S : Base I B V R}

theorem kill_step {s : State I} {i j} (h : j ∈ s.kill) : j ∈ (f.step n s i).kill := by
  unfold Func.step
  split
  · split
    · exact h
    · have : ∀ v, j ∈ f.killPrev s v := by
        intro v
        unfold Func.killPrev
        split
        · split
          · simp [h]
          · exact h
        · exact h
      unfold Func.storeWhole
      split
      · simp [this]
      · exact this _
    · exact h
  · split
    · exact h
    · unfold Func.loadWhole
      split
      · split
        · simp [h]
        · exact h
      · split
        · simp [h]
        · exact h
    · unfold loadPart
      split <;> exact h
  · exact h
  · exact h

theorem kill_steps {j} : ∀ (l : List I) {s : State I}, j ∈ s.kill → j ∈ (l.foldl (f.step n) s).kill := by
  intro l
  induction l with
  | nil => intro s h; exact h
  | cons i l ih => intro s h; exact ih (kill_step h)

theorem kill_blocks {j} : ∀ (l : List B) {s : State I}, j ∈ s.kill → j ∈ (l.foldl (f.block n) s).kill := by
  intro l
  induction l with
  | nil => intro s h; exact h
  | cons b l ih => intro s h; exact ih (kill_steps _ h)

section
variable (hw : WellFormed f n)
include hw

theorem run_eq (b : B) {pre post : List I} (hp : f.all b = pre ++ post) :
    ∃ l2, f.blocks = before f b ++ b :: l2 ∧ f.run n = l2.foldl (f.block n) (post.foldl (f.step n) (here f n b pre)) := by
  obtain ⟨l2, hb⟩ := before_spec hw b
  refine ⟨l2, hb, ?_⟩
  have : ∀ l1, f.blocks = l1 ++ b :: l2 → f.run n = l2.foldl (f.block n) (post.foldl (f.step n) (stateAt f n l1 pre)) := by
    intro l1 h
    simp [Func.run, h, stateAt, Func.block, hp]
  exact this _ hb

theorem kill_removed {b : B} {pre post : List I} (hp : f.all b = pre ++ post) {j} (h : j ∈ (here f n b pre).kill) :
    f.removed n j = true := by
  obtain ⟨l2, -, e⟩ := run_eq hw b hp
  simp only [Func.removed, decide_eq_true_eq]
  rw [e]
  exact kill_blocks _ (kill_steps _ h)

theorem safe_here {b : B} {pre post : List I} (hp : f.all b = pre ++ post) {j} (hj : j ∈ pre)
    (h : Safe (here f n b pre) j) : f.removed n j = false := by
  obtain ⟨l2, hb, -⟩ := run_eq hw b hp
  exact Safe.run hw hb hp hj h

theorem safe_end {b : B} {pre : List I} (hp : f.all b = pre) {j} (hj : j ∈ pre)
    (h : j ∉ (here f n b pre).kill) : f.removed n j = false := by
  obtain ⟨l2, hb, e⟩ := run_eq hw b (pre := pre) (post := []) (by simpa using hp)
  simp only [Func.removed, decide_eq_false_iff_not]
  rw [e]
  apply Safe.blocks l2 h
  have hn := hw.nodup
  rw [Func.insts, hb, List.flatMap_append, List.flatMap_cons, List.nodup_append] at hn
  have hn2 := hn.2.1
  rw [List.nodup_append] at hn2
  intro hm
  exact hn2.2.2 j (by rw [hp]; exact hj) j hm rfl

/-- A store that will be removed stays remembered until the variable is stored to again. -/
theorem pend_keep {b : B} {pre : List I} {i r} (hp : f.all b = pre ++ i :: r) {v j}
    (hj : (here f n b pre).st v = some j) (hr : f.removed n j = true) :
    (f.step n (here f n b pre) i).st v = some j ∨
      ∃ p w, f.kind i = .store ∧ f.ops i = [p, w] ∧ f.access n (here f n b pre) p = some (v, true) := by
  have hjp : j ∈ pre := local_st hw hj
  obtain ⟨done, hinv⟩ := here_inv hw hp
  have hjk := (hinv.st v j hj).2.1
  have hinj := fun u (hu : (here f n b pre).st u = some j) => hinv.inj u v j hu hj
  have hno : ¬ Safe (f.step n (here f n b pre) i) j := by
    intro hs
    rw [← here_snoc] at hs
    have := safe_here hw (b := b) (pre := pre ++ [i]) (post := r) (by simpa using hp) (by simp [hjp]) hs
    rw [hr] at this
    cases this
  unfold Func.step at hno ⊢
  split
  · next p w hk ho =>
    rw [hk, ho] at hno
    simp only at hno
    split
    · exact .inl hj
    · next u ha =>
      by_cases huv : u = v
      · subst huv
        exact .inr ⟨p, w, by simp [hk, ho, ha]⟩
      · left
        unfold Func.storeWhole
        split
        · exact hj
        · simp [set, Ne.symm huv, hj]
    · next u ha =>
      by_cases huv : u = v
      · subst huv
        rw [ha] at hno
        exfalso
        apply hno
        refine ⟨hjk, .inr ?_⟩
        intro u' hu'
        rcases set_some hu' with ⟨-, h1⟩ | ⟨h1, h2⟩
        · cases h1
        · exact h1 (hinj u' h2)
      · left
        simp [set, Ne.symm huv, hj]
  · left
    split
    · exact hj
    · unfold Func.loadWhole
      split
      · split <;> exact hj
      · split <;> exact hj
    · unfold loadPart
      split <;> exact hj
  · next hk =>
    rw [hk] at hno
    exact absurd ⟨hjk, .inr (by simp)⟩ hno
  · exact .inl hj

/-- A part of the variable is not read meanwhile. -/
theorem pend_part {b : B} {pre : List I} {i r} (hp : f.all b = pre ++ i :: r) {v j p}
    (hj : (here f n b pre).st v = some j) (hk : f.kind i = .load) (ho : f.ops i = [p])
    (ha : f.access n (here f n b pre) p = some (v, false)) : f.removed n j = false := by
  have hjp : j ∈ pre := local_st hw hj
  obtain ⟨done, hinv⟩ := here_inv hw hp
  have hjk := (hinv.st v j hj).2.1
  apply safe_here hw (b := b) (pre := pre ++ [i]) (post := r) (by simpa using hp) (by simp [hjp])
  rw [here_snoc]
  unfold Func.step
  rw [hk, ho]
  simp only [ha, loadPart, hj]
  exact ⟨hjk, .inl (by simp)⟩

/-- A load of the whole variable is removed meanwhile. -/
theorem pend_whole {b : B} {pre : List I} {i r} (hp : f.all b = pre ++ i :: r) {v j p}
    (hj : (here f n b pre).st v = some j) (hk : f.kind i = .load) (ho : f.ops i = [p])
    (ha : f.access n (here f n b pre) p = some (v, true)) : f.removed n i = true := by
  obtain ⟨done, hinv⟩ := here_inv hw hp
  obtain ⟨q, w, hops⟩ := hw.store j (hinv.st v j hj).2.2
  apply kill_removed hw (b := b) (pre := pre ++ [i]) (post := r) (by simpa using hp)
  rw [here_snoc]
  unfold Func.step
  rw [hk, ho]
  simp [ha, Func.loadWhole, hj, Func.object, hops]

/-- What is removed accesses the whole of a variable. -/
theorem removed_why {b : B} {pre : List I} {i r} (hp : f.all b = pre ++ i :: r) (hr : f.removed n i = true) :
    ∃ p v, f.access n (here f n b pre) p = some (v, true) ∧
      ((f.kind i = .load ∧ f.ops i = [p] ∧ ((here f n b pre).st v ≠ none ∨ (here f n b pre).ld v ≠ none)) ∨
       (∃ w, f.kind i = .store ∧ f.ops i = [p, w])) := by
  obtain ⟨l2, hb⟩ := before_spec hw b
  have hfr := fresh hw hb hp
  have hinv := sinv_at hw hb hp
  have hik : i ∉ (here f n b pre).kill := fun h => hfr (hinv.kill i h)
  have his : ∀ v, (here f n b pre).st v ≠ some i := fun v h => hfr (hinv.st v i h).1
  have hno : ¬ Safe (f.step n (here f n b pre) i) i := by
    intro hs
    rw [← here_snoc] at hs
    have := safe_here hw (b := b) (pre := pre ++ [i]) (post := r) (by simpa using hp) (by simp) hs
    rw [hr] at this
    cases this
  have hsafe : Safe (here f n b pre) i := ⟨hik, .inr his⟩
  unfold Func.step at hno
  split at hno
  · next p w hk ho =>
    split at hno
    · exact absurd hsafe hno
    · next v ha => exact ⟨p, v, ha, .inr ⟨w, hk, ho⟩⟩
    · exfalso
      apply hno
      refine ⟨hik, .inr ?_⟩
      intro u hu
      rcases set_some hu with ⟨-, h1⟩ | ⟨-, h1⟩
      · cases h1
      · exact his u h1
  · next p hk ho =>
    split at hno
    · exact absurd hsafe hno
    · next v ha =>
      refine ⟨p, v, ha, .inl ⟨hk, ho, ?_⟩⟩
      unfold Func.loadWhole at hno
      split at hno
      · next hs => exact .inl (by simp [hs])
      · split at hno
        · next hl => exact .inr (by simp [hl])
        · exact absurd ⟨hik, .inr his⟩ hno
    · exfalso
      apply hno
      unfold loadPart
      split
      · exact ⟨hik, .inr his⟩
      · exact hsafe
  · exact absurd ⟨hik, .inr (by simp)⟩ hno
  · exact absurd hsafe hno

end

/-- The memories: they differ only in variables that are stored to again before they are read. -/
def W (f : Func I B) (n : Nat) (c : Config I B V (Mem I V R)) (m' : Mem I V R) : Prop :=
  m'.2 = c.mem.2 ∧ ∀ pre, f.all c.block = pre ++ c.rest → ∀ v,
    m'.1 v = c.mem.1 v ∨ ∃ j, (here f n c.block pre).st v = some j ∧ f.removed n j = true

section
variable (hw : WellFormed f n) (hv : Valid f.code fun d => S.start d ≠ none)
include hw hv

theorem w_step {b : B} {i j r env m hh} (h : Reach f.code (sem f S) ⟨b, i :: j :: r, env, m, hh⟩) {pre : List I}
    (hp : f.all b = pre ++ i :: j :: r) {env' : I → Option V} {m1 m1' : Mem I V R} {hh'} (h2 : m1'.2 = m1.2)
    (h1 : ∀ v, m1'.1 v = m1.1 v ∨ ∃ k, (here f n b pre).st v = some k ∧ f.removed n k = true ∧
      ∀ p w, f.kind i = .store → f.ops i = [p, w] → f.access n (here f n b pre) p ≠ some (v, true)) :
    W f n ⟨b, j :: r, env', m1, hh'⟩ m1' := by
  refine ⟨h2, ?_⟩
  intro pre' hp' v
  have := pre_eq hw hp hp'
  subst this
  simp only
  rcases h1 v with h3 | ⟨k, h3, h4, h5⟩
  · exact .inl h3
  · right
    refine ⟨k, ?_, h4⟩
    rw [here_snoc]
    rcases pend_keep hw hp h3 h4 with h6 | ⟨p, w, h6, h7, h8⟩
    · exact h6
    · exact absurd h8 (h5 p w h6 h7)

/-- An instruction that stays does the same with both memories. -/
theorem act_both (hP : Pointers S) (hL : Logical f S) {b : B} {i j r env m hh}
    (h : Reach f.code (sem f S) ⟨b, i :: j :: r, env, m, hh⟩) (hg : f.removed n i = false)
    {m' : Mem I V R} (hW : W f n ⟨b, i :: j :: r, env, m, hh⟩ m') {a} (hra : ReadAll env (f.code.ops i) a) (x : V) :
    (∀ m1, act f S i a m x m1 → ∃ m1', act f S i a m' x m1' ∧ W f n ⟨b, j :: r, define env i x, m1, i :: hh⟩ m1') ∧
    (∀ m1', act f S i a m' x m1' → ∃ m1, act f S i a m x m1 ∧ W f n ⟨b, j :: r, define env i x, m1, i :: hh⟩ m1') := by
  obtain ⟨hptr, hsame, hf⟩ := reach_inv hw hv hP hL h
  obtain ⟨pre, hp⟩ := exists_pre hw hv h
  simp only at hp
  obtain ⟨done, hinv⟩ := here_inv hw hp
  obtain ⟨hW2, hW1⟩ := hW
  have hW1 := hW1 pre hp
  simp only at hW1 hW2
  have hhid : ∀ v j, (here f n b pre).st v = some j → S.hidden v = true := by
    intro v j hj
    have := hinv.tgt v (.inl (by simp [hj]))
    exact hL.hidden v this.1 (supported_private hw hL.not_stored this.2)
  have step := fun {m1 m1'} => w_step hw hv h hp (env' := define env i x) (hh' := i :: hh) (m1 := m1) (m1' := m1')
  -- nothing is stored
  have same : f.kind i ≠ .store → W f n ⟨b, j :: r, define env i x, m, i :: hh⟩ m' := by
    intro hk
    refine step hW2 ?_
    intro v
    rcases hW1 v with h1 | ⟨k, h1, h2⟩
    · exact .inl h1
    · exact .inr ⟨k, h1, h2, fun p w h3 => absurd h3 hk⟩
  have other : f.kind i ≠ .store → ∀ (o : I → V) (r1 : R), W f n ⟨b, j :: r, define env i x, (fun v => if S.hidden v then m.1 v else o v, r1), i :: hh⟩
      (fun v => if S.hidden v then m'.1 v else o v, r1) := by
    intro hk o r1
    refine step rfl ?_
    intro v
    by_cases hh : S.hidden v = true
    · simp only [hh, if_true]
      rcases hW1 v with h1 | ⟨k, h1, h2⟩
      · exact .inl h1
      · exact .inr ⟨k, h1, h2, fun p w h3 => absurd h3 hk⟩
    · left; simp [hh]
  have seen : S.seen m'.1 = S.seen m.1 := by
    funext v
    simp only [Base.seen]
    split
    · rfl
    · next hh =>
      rcases hW1 v with h1 | ⟨k, h1, h2⟩
      · rw [h1]
      · exact absurd (hhid v k h1) hh
  by_cases hks : f.kind i = .store
  · obtain ⟨p, w, ho⟩ := hw.store i hks
    simp only [Func.code, ho, List.map_cons, List.map_nil] at hra
    cases hra with
    | @cons _ _ y _ h1 h2 =>
    cases h2 with
    | @cons _ _ z _ h2 h3 =>
    cases h3
    simp only [Read] at h1 h2
    have hap := fun {v wh} => access_points hw hv hP hL h hptr hsame rfl ho h1 hp (v := v) (wh := wh)
    simp only at hap
    simp only [act, hks]
    cases hpt : S.points y with
    | none =>
      simp only
      have hn : ∀ v, f.access n (here f n b pre) p ≠ some (v, true) := by
        intro v hac
        have := (hap hac).1
        rw [hpt] at this
        cases this
      have hw1 : ∀ r1 : R, W f n ⟨b, j :: r, define env i x, (m.1, r1), i :: hh⟩ (m'.1, r1) := by
        intro r1
        refine step rfl ?_
        intro v
        rcases hW1 v with h1 | ⟨k, h1, h2⟩
        · exact .inl h1
        · refine .inr ⟨k, h1, h2, fun p' w' h3 h4 => ?_⟩
          rw [ho] at h4
          cases h4
          exact hn v
      constructor
      · rintro ⟨m11, m12⟩ ⟨h3, h4⟩
        simp only at h3 h4
        subst h4
        exact ⟨(m'.1, m12), ⟨by rw [hW2]; exact h3, rfl⟩, hw1 m12⟩
      · rintro ⟨m11, m12⟩ ⟨h3, h4⟩
        simp only at h3 h4
        subst h4
        exact ⟨(m.1, m12), ⟨by rw [← hW2]; exact h3, rfl⟩, hw1 m12⟩
    | some v =>
      simp only
      have hput : S.put y (m'.1 v) z = S.put y (m.1 v) z := by
        rcases hW1 v with h3 | ⟨k, h3, h4⟩
        · rw [h3]
        · obtain ⟨wh, hac⟩ := points_access hw hv hL h rfl (.inr hks) ho h1 hp hpt (hinv.tgt v (.inl (by simp [h3])))
          simp only at hac
          cases wh with
          | true =>
            rw [(hap hac).2.2 rfl, hP.put, hP.put]
          | false =>
            rcases pend_keep hw hp h3 h4 with h5 | ⟨p', w', h5, h6, h7⟩
            · exfalso
              unfold Func.step at h5
              rw [hks, ho] at h5
              simp [hac, set] at h5
            · rw [ho] at h6
              cases h6
              rw [hac] at h7
              cases h7
      have hw1 : W f n ⟨b, j :: r, define env i x, (write m.1 v (S.put y (m.1 v) z), m.2), i :: hh⟩
          (write m'.1 v (S.put y (m'.1 v) z), m'.2) := by
        refine step hW2 ?_
        intro u
        by_cases huv : u = v
        · subst huv
          left
          simp [write, hput]
        · simp only [write, huv, if_false]
          rcases hW1 u with h1 | ⟨k, h1, h2⟩
          · exact .inl h1
          · refine .inr ⟨k, h1, h2, fun p' w' h3 h4 hac => ?_⟩
            rw [ho] at h4
            cases h4
            have := (hap hac).1
            rw [hpt] at this
            cases this
            exact huv rfl
      constructor
      · rintro m1 rfl
        exact ⟨_, rfl, hw1⟩
      · rintro m1 rfl
        exact ⟨_, rfl, hw1⟩
  · have generic : f.kind i ≠ .load → (∀ m1, act f S i a m x m1 → ∃ m1', act f S i a m' x m1' ∧ W f n ⟨b, j :: r, define env i x, m1, i :: hh⟩ m1') ∧
      (∀ m1', act f S i a m' x m1' → ∃ m1, act f S i a m x m1 ∧ W f n ⟨b, j :: r, define env i x, m1, i :: hh⟩ m1') := by
      intro hkl
      unfold act
      split
      · exact ⟨fun m1 ⟨e1, e2⟩ => ⟨m', ⟨e1, rfl⟩, e2 ▸ same hks⟩, fun m1 ⟨e1, e2⟩ => ⟨m, ⟨e1, rfl⟩, e2 ▸ same hks⟩⟩
      · exact ⟨fun m1 ⟨e1, e2⟩ => ⟨m', ⟨e1, rfl⟩, e2 ▸ same hks⟩, fun m1 ⟨e1, e2⟩ => ⟨m, ⟨e1, rfl⟩, e2 ▸ same hks⟩⟩
      · exact ⟨fun m1 ⟨e0, e1, e2⟩ => ⟨m', ⟨e0, e1, rfl⟩, e2 ▸ same hks⟩, fun m1 ⟨e0, e1, e2⟩ => ⟨m, ⟨e0, e1, rfl⟩, e2 ▸ same hks⟩⟩
      · next hk => exact absurd hk hkl
      · next hk => exact absurd hk hks
      · exact ⟨fun m1 e2 => ⟨m', rfl, e2 ▸ same hks⟩, fun m1 e2 => ⟨m, rfl, e2 ▸ same hks⟩⟩
      · constructor
        · rintro ⟨m11, m12⟩ ⟨o, h1, h2⟩
          simp only at h1 h2
          subst h2
          exact ⟨(_, m12), ⟨o, by rw [seen, hW2]; exact h1, rfl⟩, other hks o m12⟩
        · rintro ⟨m11, m12⟩ ⟨o, h1, h2⟩
          simp only at h1 h2
          subst h2
          exact ⟨(_, m12), ⟨o, by rw [← seen, ← hW2]; exact h1, rfl⟩, other hks o m12⟩
    by_cases hkl : f.kind i = .load
    · obtain ⟨p, ho⟩ := hw.load i hkl
      simp only [Func.code, ho, List.map_cons, List.map_nil] at hra
      cases hra with
      | @cons _ _ y _ h1 h2 =>
      cases h2
      simp only [Read] at h1
      simp only [act, hkl]
      cases hpt : S.points y with
      | none =>
        simp only
        exact ⟨fun m1 ⟨e1, e2⟩ => ⟨m', ⟨by rw [hW2]; exact e1, rfl⟩, e2 ▸ same hks⟩,
          fun m1 ⟨e1, e2⟩ => ⟨m, ⟨by rw [← hW2]; exact e1, rfl⟩, e2 ▸ same hks⟩⟩
      | some v =>
        simp only
        have hget : m'.1 v = m.1 v := by
          rcases hW1 v with h3 | ⟨k, h3, h4⟩
          · exact h3
          · exfalso
            obtain ⟨wh, hac⟩ := points_access hw hv hL h rfl (.inl hkl) ho h1 hp hpt (hinv.tgt v (.inl (by simp [h3])))
            simp only at hac
            cases wh with
            | true =>
              rw [pend_whole hw hp h3 hkl ho hac] at hg
              cases hg
            | false =>
              rw [pend_part hw hp h3 hkl ho hac] at h4
              cases h4
        exact ⟨fun m1 ⟨e1, e2⟩ => ⟨m', ⟨by rw [hget]; exact e1, rfl⟩, e2 ▸ same hks⟩,
          fun m1 ⟨e1, e2⟩ => ⟨m, ⟨by rw [← hget]; exact e1, rfl⟩, e2 ▸ same hks⟩⟩
    · exact generic hkl

/-- Removing an instruction. -/
theorem act_drop (hP : Pointers S) (hL : Logical f S) {b : B} {i j r env m hh}
    (h : Reach f.code (sem f S) ⟨b, i :: j :: r, env, m, hh⟩) (hg : f.removed n i = true)
    {a} (hra : ReadAll env (f.code.ops i) a) :
    (∃ x m1, act f S i a m x m1) ∧ ∀ (m' : Mem I V R), W f n ⟨b, i :: j :: r, env, m, hh⟩ m' → ∀ x m1, act f S i a m x m1 →
      W f n ⟨b, j :: r, define env i x, m1, i :: hh⟩ m' := by
  obtain ⟨hptr, hsame, hf⟩ := reach_inv hw hv hP hL h
  obtain ⟨pre, hp⟩ := exists_pre hw hv h
  simp only at hp
  obtain ⟨done, hinv⟩ := here_inv hw hp
  obtain ⟨p, v, hac, ⟨hk, ho, -⟩ | ⟨w, hk, ho⟩⟩ := removed_why hw hp hg
  · simp only [Func.code, ho, List.map_cons, List.map_nil] at hra
    cases hra with
    | @cons _ _ y _ h1 h2 =>
    cases h2
    simp only [Read] at h1
    obtain ⟨hpt, -, -⟩ := access_points hw hv hP hL h hptr hsame rfl ho h1 hp hac
    simp only [act, hk, hpt]
    refine ⟨⟨_, _, rfl, rfl⟩, ?_⟩
    rintro m' ⟨hW2, hW1⟩ x m1 ⟨-, rfl⟩
    refine w_step hw hv h hp hW2 ?_
    intro u
    rcases hW1 pre hp u with h3 | ⟨k, h3, h4⟩
    · exact .inl h3
    · exact .inr ⟨k, h3, h4, fun p' w' h5 => by rw [hk] at h5; cases h5⟩
  · simp only [Func.code, ho, List.map_cons, List.map_nil] at hra
    cases hra with
    | @cons _ _ y _ h1 h2 =>
    cases h2 with
    | @cons _ _ z _ h2 h3 =>
    cases h3
    simp only [Read] at h1 h2
    obtain ⟨hpt, hhid, hya⟩ := access_points hw hv hP hL h hptr hsame rfl ho h1 hp hac
    have := hya rfl
    subst this
    simp only [act, hk, hpt, hP.put]
    refine ⟨⟨z, _, rfl⟩, ?_⟩
    rintro m' ⟨hW2, hW1⟩ x m1 rfl
    refine ⟨hW2, ?_⟩
    intro pre' hp' u
    have := pre_eq hw hp hp'
    subst this
    have hW1 := hW1 pre hp
    simp only at hW1 ⊢
    rw [here_snoc]
    have hstep : f.step n (here f n b pre) i = f.storeWhole (here f n b pre) i w v := by
      unfold Func.step
      rw [hk, ho]
      simp [hac]
    rw [hstep]
    unfold Func.storeWhole
    split
    · next hl =>
      have hz : z = m.1 v := by
        have h6 := (hf pre hp).2 v _ hl
        obtain ⟨q, hq⟩ := (at_reach (S := sem f S) hv h).split
        have hib : i ∈ f.body b := by
          have : f.code.body b = f.body b := rfl
          simp only at hq
          rw [← this, hq]; simp
        have hav : Avail f.code (sem f S) w i := hv.ops b i hib w (by simp [Func.code, ho])
        obtain ⟨-, z', h7, h8⟩ := (hinv.chain w).value hv (placed hw hv) h hsame rfl hav
        simp only at h6 h7 h8
        rw [h2] at h7
        cases h7
        rw [h6] at h8
        exact (Option.some.inj h8).symm
      have hm : write m.1 v z u = m.1 u := by
        simp only [write]
        split
        · next hu => rw [hu, hz]
        · rfl
      rw [hm]
      exact hW1 u
    · by_cases huv : u = v
      · subst huv
        exact .inr ⟨i, by simp [set], hg⟩
      · simp only [write, set, huv, if_false]
        exact hW1 u

theorem w_end {c : Config I B V (Mem I V R)} (h : Reach f.code (sem f S) c) {i} (hi : c.rest = [i]) {m' : Mem I V R}
    (hW : W f n c m') : m' = c.mem := by
  obtain ⟨pre, hp⟩ := exists_pre hw hv h
  obtain ⟨done, hinv⟩ := here_inv hw hp
  obtain ⟨hW2, hW1⟩ := hW
  have hW1 := hW1 pre hp
  obtain ⟨q, hq⟩ := (at_reach (S := sem f S) hv h).split
  have : f.code.body c.block = f.body c.block := rfl
  rw [this, hi] at hq
  have hk := hw.term _ _ _ hq
  refine Prod.ext (funext fun v => ?_) hW2
  rcases hW1 v with h1 | ⟨k, h1, h2⟩
  · exact h1
  · rw [hi] at hp
    have := safe_end hw hp (j := k) (by simp [local_st hw h1]) (by
      rw [here_snoc, step_same hw hv (by simp [hk]) (by simp [hk]) (by simp [hk])]
      exact (hinv.st v k h1).2.1)
    rw [h2] at this
    cases this

theorem object_kind {d e} (h : Fwd f n d e) : f.kind e ≠ .store := by
  obtain ⟨b, pre, post, p, v, hp, ho, ha, hr⟩ := h.here hw hv
  obtain ⟨done, hinv⟩ := here_inv hw hp
  rcases hr with ⟨s, q, hs, hso⟩ | ⟨-, hl⟩
  · have hk := (hinv.st v s hs).2.2
    exact hw.result s (hw.inside s (by simp [hk])) e (.inl (by simp [hso]))
  · simp [(hinv.ld v e hl).2.2.1]

theorem chain_kind {d e} (h : Chain (Fwd f n) d e) (hd : f.kind d ≠ .store) : f.kind e ≠ .store := by
  induction h with
  | refl => exact hd
  | cons h1 _ ih => exact ih (object_kind hw hv h1)

theorem removed_kind {i} (h : f.removed n i = true) : f.kind i = .load ∨ f.kind i = .store := by
  have := (sinv_run hw).dead i (by simpa [Func.removed] using h)
  rcases this with h | h
  · exact .inr h
  · exact .inl h.1

theorem replace (hP : Pointers S) (hL : Logical f S) :
    Replace f.code (sem f S) (Fwd f n) (f.run n).sub (f.removed n) (W f n) where
  valid := hv
  pairs := pairs hw hv hP hL
  chain := (sinv_run hw).chain
  term := by
    rintro t ⟨b, l, h⟩
    have hk := hw.term b l t h
    cases hr : f.removed n t with
    | false => rfl
    | true => rcases removed_kind hw hv hr with h | h <;> rw [hk] at h <;> cases h
  used := by
    intro b i d hi hd hr
    have hi' : i ∈ f.insts := by
      simp only [Func.insts, List.mem_flatMap]
      exact ⟨b, hw.blocks b, hi⟩
    have hk : f.kind d ≠ .store := by
      refine hw.result i hi' d ?_
      simp only [Func.code, List.mem_map, Operand.id.injEq, exists_eq_right, Prod.mk.injEq] at hd
      rcases hd with hd | ⟨b', ⟨d', b2⟩, hd, h1, h2⟩
      · exact .inl hd
      · simp only at h1 h2
        subst h1
        exact .inr ⟨b2, hd⟩
    have hs := (sinv_run hw).chain d
    have hk' := chain_kind hw hv hs hk
    rcases (sinv_run hw).dead _ (by simpa [Func.removed] using hr) with h1 | ⟨-, h1 | h1⟩
    · exact absurd h1 hk'
    · exact absurd rfl (h1 d)
    · exact h1
  phi := by
    intro b l t b' p _ _ hp hr
    have hk := (hw.phi b' p hp).1
    rcases removed_kind hw hv hr with h | h <;> rw [hk] at h <;> cases h
  start := ⟨rfl, fun _ _ _ => .inl rfl⟩
  bwd := by
    rintro ⟨b, rest, env, m, hh⟩ h i j r hi hg a hra x m1' m' hact hW
    simp only at hi
    subst hi
    exact (act_both hw hv hP hL h hg hW hra x).2 m1' hact
  keep := by
    rintro ⟨b, rest, env, m, hh⟩ h i j r hi hg a hra x m1 m' hact hW
    simp only at hi
    subst hi
    exact (act_both hw hv hP hL h hg hW hra x).1 m1 hact
  drop := by
    rintro ⟨b, rest, env, m, hh⟩ h i j r hi hg a hra x m1 m' hact hW
    simp only at hi
    subst hi
    exact (act_drop hw hv hP hL h hg hra).2 m' hW x m1 hact
  defined := by
    intro i _
    simp [Func.code]
  free := by
    rintro ⟨b, rest, env, m, hh⟩ h i j r hi hg a hra
    simp only at hi
    subst hi
    exact (act_drop hw hv hP hL h hg hra).1
  jump := by
    intro c h i hi a m' hra hW
    have := w_end hw hv h hi hW
    subst this
    refine ⟨fun _ => Iff.rfl, fun d hs hm => ?_⟩
    exact ⟨by rw [hm], fun _ _ _ => .inl (by rw [hm])⟩

theorem after_eq : f.code.replaced (f.run n).sub (f.removed n) = f.after n := by
  simp only [Code.replaced, Func.after, Func.code, List.map_map]
  rfl

theorem rel_match (hL : Logical f S) {c c' : Config I B V (Mem I V R)} (h : Reach f.code (sem f S) c)
    (hr : Rel f.code (sem f S) (f.removed n) (W f n) c c') : Match f S (f.removed n) c c' := by
  obtain ⟨h1, h2, h3, h4, h5⟩ := hr
  obtain ⟨pre, hp⟩ := exists_pre hw hv h
  obtain ⟨done, hinv⟩ := here_inv hw hp
  refine ⟨h1, h2, h3, h4, h5.1, ?_, ?_⟩
  · intro v hh
    rcases h5.2 pre hp v with h6 | ⟨j, h6, -⟩
    · exact h6
    · have := hinv.tgt v (.inl (by simp [h6]))
      rw [hL.hidden v this.1 (supported_private hw hL.not_stored this.2)] at hh
      cases hh
  · intro t ht
    exact w_end hw hv h ht h5

end
end Verif.LocalElim
