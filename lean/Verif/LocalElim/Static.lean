import Verif.LocalElim.Spec
set_option linter.unusedSimpArgs false
set_option linter.unusedVariables false
set_option linter.unusedSectionVars false
/-!
# What the pass knows at each instruction
-/
namespace Verif.LocalElim
open Verif.SsaExec Verif.LocalElim.Spec
variable {I B V R : Type} [DecidableEq I] {f : Func I B} {n : Nat}

theorem base_direct (hw : WellFormed f n) : ∀ {k p v}, f.base k p = some v → ∃ j, Direct f j p v := by
  intro k
  induction k with
  | zero => intro p v h; simp [Func.base] at h
  | succ k ih =>
    intro p v h
    unfold Func.base at h
    split at h
    · next hk => cases h; exact ⟨0, .here hk⟩
    · next hk ho =>
      obtain ⟨j, hj⟩ := ih h
      exact ⟨j + 1, .chain hk ho hj⟩
    · next q r hk ho =>
      obtain ⟨j, hj⟩ := ih h
      obtain ⟨p', hp'⟩ := hw.copy _ hk
      rw [ho] at hp'
      cases hp'
      exact ⟨j + 1, .copy hk ho hj⟩
    · cases h

theorem direct_base {k p v} (h : Direct f k p v) : ∀ {m}, k < m → f.base m p = some v := by
  induction h with
  | here hk =>
    intro m hm
    cases m with
    | zero => omega
    | succ m => unfold Func.base; rw [hk]
  | chain hk ho _ ih =>
    intro m hm
    cases m with
    | zero => omega
    | succ m => unfold Func.base; rw [hk, ho]; exact ih (by omega)
  | copy hk ho _ ih =>
    intro m hm
    cases m with
    | zero => omega
    | succ m => unfold Func.base; rw [hk, ho]; exact ih (by omega)

/-- `p` is `v` or a copy of it. -/
inductive CopyOf (f : Func I B) : I → I → Prop where
  | here {v} : f.kind v = .variable → CopyOf f v v
  | copy {p q v} : f.kind q = .copy → f.ops q = [p] → CopyOf f p v → CopyOf f q v

theorem strip_copy (hw : WellFormed f n) : ∀ {k p v}, f.base k p = some v → f.kind (f.strip k p) = .variable → CopyOf f p v := by
  intro k
  induction k with
  | zero => intro p v h; simp [Func.base] at h
  | succ k ih =>
    intro p v h hs
    unfold Func.base at h
    split at h
    · next hk => cases h; exact .here hk
    · next hk ho =>
      unfold Func.strip at hs
      simp only [hk, ho] at hs
      cases hs
    · next q r hk ho =>
      unfold Func.strip at hs
      simp only [hk, ho] at hs
      obtain ⟨p', hp'⟩ := hw.copy _ hk
      rw [ho] at hp'
      cases hp'
      exact .copy hk ho (ih h hs)
    · cases h

theorem direct_kind {k p v} (h : Direct f k p v) : f.kind p = .variable ∨ f.kind p = .chain ∨ f.kind p = .copy := by
  cases h <;> simp_all

theorem direct_fun (hw : WellFormed f n) {k p v k' v'} (h : Direct f k p v) (h' : Direct f k' p v') : v = v' := by
  have h1 := direct_base h (hw.deep _ _ _ h)
  have h2 := direct_base h' (hw.deep _ _ _ h')
  rw [h1] at h2
  exact Option.some.inj h2

theorem mem_users {p u} : u ∈ f.users p ↔ u ∈ f.insts ∧ (p ∈ f.ops u ∨ ∃ b, (p, b) ∈ f.args u) := by
  simp only [Func.users, List.mem_filter, Bool.or_eq_true, decide_eq_true_eq, List.mem_map, Prod.exists, exists_and_right,
    exists_eq_right]

theorem supported_direct (hw : WellFormed f n) {k p v} (h : Direct f k p v) : ∀ {m}, f.supported m v = true →
    ∃ m', f.supported m' p = true := by
  induction h with
  | here => intro m hm; exact ⟨m, hm⟩
  | @chain k p q r v hk ho _ ih =>
    intro m hm
    obtain ⟨m', h⟩ := ih hm
    cases m' with
    | zero => simp [Func.supported] at h
    | succ m' =>
      unfold Func.supported at h
      rw [List.all_eq_true] at h
      have := h q (mem_users.mpr ⟨hw.inside q (by simp [hk]), .inl (by simp [ho])⟩)
      rw [hk] at this
      exact ⟨m', this⟩
  | @copy k p q v hk ho _ ih =>
    intro m hm
    obtain ⟨m', h⟩ := ih hm
    cases m' with
    | zero => simp [Func.supported] at h
    | succ m' =>
      unfold Func.supported at h
      rw [List.all_eq_true] at h
      have := h q (mem_users.mpr ⟨hw.inside q (by simp [hk]), .inl (by simp [ho])⟩)
      rw [hk] at this
      exact ⟨m', this⟩

/-- With logical addressing, a variable with supported uses only is private. -/
theorem supported_private (hw : WellFormed f n)
    (hs : ∀ i ∈ f.insts, f.kind i = .store → ∀ p w, f.ops i = [p, w] → ∀ k v, ¬ Direct f k w v) {m v}
    (h : f.supported m v = true) : Private f v := by
  intro k p hp u hu hpu
  obtain ⟨m', hm⟩ := supported_direct hw hp h
  cases m' with
  | zero => simp [Func.supported] at hm
  | succ m' =>
    unfold Func.supported at hm
    rw [List.all_eq_true] at hm
    have := hm u (mem_users.mpr ⟨hu, hpu⟩)
    cases hk : f.kind u <;> simp [hk] at this ⊢
    intro q w ho
    rintro rfl
    exact hs u hu hk q w ho k v hp

/-! ## The state of the pass at each instruction -/

def stateAt (f : Func I B) (n : Nat) (l1 : List B) (pre : List I) : State I :=
  pre.foldl (f.step n) (enter (l1.foldl (f.block n) init))

theorem stateAt_snoc {l1 : List B} {pre : List I} {i} : stateAt f n l1 (pre ++ [i]) = f.step n (stateAt f n l1 pre) i := by
  simp [stateAt]

/-- The load `d` is replaced by `e`. -/
def Fwd (f : Func I B) (n : Nat) (d e : I) : Prop :=
  ∃ l1 b l2 pre post p v, f.blocks = l1 ++ b :: l2 ∧ f.all b = pre ++ d :: post ∧ f.kind d = .load ∧ f.ops d = [p] ∧
    f.access n (stateAt f n l1 pre) p = some (v, true) ∧
    ((∃ s q, (stateAt f n l1 pre).st v = some s ∧ f.ops s = [q, e]) ∨
      ((stateAt f n l1 pre).st v = none ∧ (stateAt f n l1 pre).ld v = some e))

theorem Fwd.kind {d e} (h : Fwd f n d e) : f.kind d = .load := by
  obtain ⟨_, _, _, _, _, _, _, _, _, h, _⟩ := h
  exact h

/-- What holds of the state after the instructions `done`. -/
structure SInv (f : Func I B) (n : Nat) (done : List I) (s : State I) : Prop where
  kill : ∀ j ∈ s.kill, j ∈ done
  st : ∀ v j, s.st v = some j → j ∈ done ∧ j ∉ s.kill ∧ f.kind j = .store
  inj : ∀ u v j, s.st u = some j → s.st v = some j → u = v
  ld : ∀ v j, s.ld v = some j → j ∈ done ∧ j ∉ s.kill ∧ f.kind j = .load ∧ s.st v = none
  tgt : ∀ v, s.st v ≠ none ∨ s.ld v ≠ none → f.target v = true ∧ f.supported n v = true
  chain : ∀ d, Chain (Fwd f n) d (s.sub d)
  dead : ∀ j ∈ s.kill, f.kind j = .store ∨ (f.kind j = .load ∧
    ((∀ d, s.sub d ≠ j) ∨ ∃ e, Fwd f n j e ∧ Chain (Fwd f n) e j))

theorem sinv_init : SInv f n [] (init : State I) := by
  refine ⟨by simp [init], by simp [init], by simp [init], by simp [init], by simp [init], ?_, by simp [init]⟩
  intro d
  exact .refl _

theorem SInv.enter {done : List I} {s : State I} (h : SInv f n done s) : SInv f n done (enter s) := by
  refine ⟨h.kill, ?_, ?_, ?_, ?_, h.chain, h.dead⟩ <;> simp [LocalElim.enter]

theorem SInv.more {done : List I} {s : State I} (h : SInv f n done s) (i : I) : SInv f n (done ++ [i]) s := by
  refine ⟨?_, ?_, h.inj, ?_, h.tgt, h.chain, h.dead⟩
  · intro j hj; simp [h.kill j hj]
  · intro v j hj
    obtain ⟨h1, h2⟩ := h.st v j hj
    exact ⟨by simp [h1], h2⟩
  · intro v j hj
    obtain ⟨h1, h2⟩ := h.ld v j hj
    exact ⟨by simp [h1], h2⟩

theorem set_some {m : I → Option I} {v u x j} (h : set m v x u = some j) : (u = v ∧ x = some j) ∨ (u ≠ v ∧ m u = some j) := by
  unfold set at h
  split at h
  · exact .inl ⟨by assumption, h⟩
  · exact .inr ⟨by assumption, h⟩

theorem access_tgt {s : State I} {p v wh} (h : f.access n s p = some (v, wh)) : f.target v = true ∧ f.supported n v = true := by
  unfold Func.access at h
  split at h
  · cases h
  · split at h
    · next hc =>
      simp only [Option.some.injEq, Prod.mk.injEq] at h
      obtain ⟨rfl, -⟩ := h
      simpa using hc
    · cases h

theorem SInv.storeWhole {done : List I} {s : State I} (h : SInv f n done s) {i w v} (hi : i ∉ done) (hk : f.kind i = .store)
    (ht : f.target v = true ∧ f.supported n v = true) : SInv f n (done ++ [i]) (f.storeWhole s i w v) := by
  unfold Func.storeWhole
  generalize hkill : f.killPrev s v = kill
  have hK : ∀ j ∈ kill, j ∈ s.kill ∨ s.st v = some j := by
    intro j hj
    rw [← hkill] at hj
    unfold Func.killPrev at hj
    split at hj
    · next prev hp =>
      split at hj
      · simp only [List.mem_cons] at hj
        rcases hj with rfl | hj
        · exact .inr hp
        · exact .inl hj
      · exact .inl hj
    · exact .inl hj
  have hD : ∀ j ∈ kill, f.kind j = .store ∨ (f.kind j = .load ∧
    ((∀ d, s.sub d ≠ j) ∨ ∃ e, Fwd f n j e ∧ Chain (Fwd f n) e j)) := by
    intro j hj
    rcases hK j hj with h1 | h1
    · exact h.dead j h1
    · exact .inl (h.st v j h1).2.2
  have hm : ∀ j ∈ kill, j ∈ done := by
    intro j hj
    rcases hK j hj with h1 | h1
    · exact h.kill j h1
    · exact (h.st v j h1).1
  have hld : ∀ u j, s.ld u = some j → j ∉ kill := by
    intro u j hj hjk
    obtain ⟨h1, h2, h3, h4⟩ := h.ld u j hj
    rcases hK j hjk with h5 | h5
    · exact h2 h5
    · have := (h.st v j h5).2.2
      rw [h3] at this
      cases this
  split
  · next hl =>
    have hsn := (h.ld v _ hl).2.2.2
    have hk0 : kill = s.kill := by rw [← hkill, Func.killPrev, hsn]
    refine ⟨?_, ?_, h.inj, ?_, h.tgt, h.chain, ?_⟩
    · intro j hj
      simp only [List.mem_cons] at hj
      rcases hj with rfl | hj
      · simp
      · simp [hm j hj]
    · intro u j hj
      obtain ⟨h1, h2, h3⟩ := h.st u j hj
      refine ⟨by simp [h1], ?_, h3⟩
      simp only [List.mem_cons, not_or]
      refine ⟨?_, by rw [hk0]; exact h2⟩
      rintro rfl
      exact hi h1
    · intro u j hj
      obtain ⟨h1, h2, h3⟩ := h.ld u j hj
      refine ⟨by simp [h1], ?_, h3⟩
      simp only [List.mem_cons, not_or]
      refine ⟨?_, hld u j hj⟩
      rintro rfl
      exact hi h1
    · intro j hj
      simp only [List.mem_cons] at hj
      rcases hj with rfl | hj
      · exact .inl hk
      · exact hD j hj
  · refine ⟨?_, ?_, ?_, ?_, ?_, h.chain, hD⟩
    · intro j hj
      simp [hm j hj]
    · intro u j hj
      rcases set_some hj with ⟨rfl, h1⟩ | ⟨h1, h2⟩
      · simp only [Option.some.injEq] at h1
        subst h1
        exact ⟨by simp, fun hj => hi (hm _ hj), hk⟩
      · obtain ⟨h3, h4, h5⟩ := h.st u j h2
        refine ⟨by simp [h3], ?_, h5⟩
        intro hjk
        rcases hK j hjk with h6 | h6
        · exact h4 h6
        · exact h1 (h.inj _ _ _ h2 h6)
    · intro u u' j hj hj'
      rcases set_some hj with ⟨rfl, h1⟩ | ⟨h1, h2⟩ <;> rcases set_some hj' with ⟨rfl, h1'⟩ | ⟨h1', h2'⟩
      · rfl
      · simp only [Option.some.injEq] at h1
        subst h1
        exact absurd (h.st _ _ h2').1 hi
      · simp only [Option.some.injEq] at h1'
        subst h1'
        exact absurd (h.st _ _ h2).1 hi
      · exact h.inj _ _ _ h2 h2'
    · intro u j hj
      rcases set_some hj with ⟨rfl, h1⟩ | ⟨h1, h2⟩
      · cases h1
      · obtain ⟨h3, h4, h5, h6⟩ := h.ld u j h2
        exact ⟨by simp [h3], hld u j h2, h5, by simp [set, h1, h6]⟩
    · intro u hu
      by_cases huv : u = v
      · subst huv; exact ht
      · simp [set, huv] at hu
        exact h.tgt u (by simpa using hu)

theorem SInv.replace {done : List I} {s : State I} (h : SInv f n done s) {i e r} (hi : i ∉ done) (hk : f.kind i = .load)
    (hf : Fwd f n i e) (hc : Chain (Fwd f n) e r) (hr : r = s.sub e ∨ r ∉ s.kill) :
    SInv f n (done ++ [i]) { s with sub := replaceAll s.sub i r, kill := i :: s.kill } := by
  refine ⟨?_, ?_, h.inj, ?_, h.tgt, ?_, ?_⟩
  · intro j hj
    simp only [List.mem_cons] at hj
    rcases hj with rfl | hj
    · simp
    · simp [h.kill j hj]
  · intro u j hj
    obtain ⟨h1, h2, h3⟩ := h.st u j hj
    refine ⟨by simp [h1], ?_, h3⟩
    simp only [List.mem_cons, not_or]
    refine ⟨?_, h2⟩
    rintro rfl
    exact hi h1
  · intro u j hj
    obtain ⟨h1, h2, h3⟩ := h.ld u j hj
    refine ⟨by simp [h1], ?_, h3⟩
    simp only [List.mem_cons, not_or]
    refine ⟨?_, h2⟩
    rintro rfl
    exact hi h1
  · intro d
    simp only [replaceAll]
    split
    · next hd =>
      have := h.chain d
      rw [hd] at this
      exact (this.snoc hf).trans hc
    · exact h.chain d
  · intro j hj
    simp only [List.mem_cons] at hj
    rcases hj with rfl | hj
    · right
      refine ⟨hk, ?_⟩
      by_cases hrj : r = j
      · subst hrj; exact .inr ⟨e, hf, hc⟩
      · left
        intro d
        simp only [replaceAll]
        split
        · exact hrj
        · assumption
    · rcases h.dead j hj with h1 | ⟨h1, h2 | h2⟩
      · exact .inl h1
      · refine .inr ⟨h1, .inl ?_⟩
        intro d
        simp only [replaceAll]
        split
        · rintro rfl
          rcases hr with h3 | h3
          · exact h2 e h3.symm
          · exact h3 hj
        · exact h2 d
      · exact .inr ⟨h1, .inr h2⟩

theorem SInv.step (hw : WellFormed f n) {done : List I} {l1 : List B} {b l2 pre i post} (hb : f.blocks = l1 ++ b :: l2)
    (hp : f.all b = pre ++ i :: post) (h : SInv f n done (stateAt f n l1 pre)) (hi : i ∉ done) :
    SInv f n (done ++ [i]) (stateAt f n l1 (pre ++ [i])) := by
  rw [stateAt_snoc]
  generalize hs : stateAt f n l1 pre = s at h
  unfold Func.step
  split
  · next p w hk ho =>
    split
    · exact h.more i
    · next v ha => exact h.storeWhole hi hk (access_tgt ha)
    · next v ha =>
      refine ⟨fun j hj => by simp [h.kill j hj], ?_, ?_, ?_, ?_, h.chain, h.dead⟩
      · intro u j hj
        rcases set_some hj with ⟨rfl, h1⟩ | ⟨h1, h2⟩
        · cases h1
        · obtain ⟨h3, h4⟩ := h.st u j h2
          exact ⟨by simp [h3], h4⟩
      · intro u u' j hj hj'
        rcases set_some hj with ⟨rfl, h1⟩ | ⟨h1, h2⟩
        · cases h1
        · rcases set_some hj' with ⟨rfl, h1'⟩ | ⟨h1', h2'⟩
          · cases h1'
          · exact h.inj _ _ _ h2 h2'
      · intro u j hj
        rcases set_some hj with ⟨rfl, h1⟩ | ⟨h1, h2⟩
        · cases h1
        · obtain ⟨h3, h4, h5, h6⟩ := h.ld u j h2
          exact ⟨by simp [h3], h4, h5, by simp [set, h1, h6]⟩
      · intro u hu
        by_cases huv : u = v
        · subst huv; exact access_tgt ha
        · simp [set, huv] at hu
          exact h.tgt u (by simpa using hu)
  · next p hk ho =>
    split
    · exact h.more i
    · next v ha =>
      unfold Func.loadWhole
      split
      · next prev hst =>
        split
        · next w hobj =>
          obtain ⟨q, w', hops⟩ := hw.store prev (h.st v prev hst).2.2
          have : w = w' := by
            simp [Func.object, hops] at hobj
            exact hobj.symm
          subst this
          have hf : Fwd f n i w := ⟨l1, b, l2, pre, post, p, v, hb, hp, hk, ho, by rw [hs]; exact ha,
            .inl ⟨prev, q, by rw [hs]; exact hst, hops⟩⟩
          exact h.replace hi hk hf (h.chain w) (.inl rfl)
        · exact h.more i
      · next hst =>
        split
        · next l hl =>
          have hf : Fwd f n i l := ⟨l1, b, l2, pre, post, p, v, hb, hp, hk, ho, by rw [hs]; exact ha,
            .inr ⟨by rw [hs]; exact hst, by rw [hs]; exact hl⟩⟩
          exact h.replace hi hk hf (.refl _) (.inr (h.ld v l hl).2.1)
        · next hl =>
          refine ⟨fun j hj => by simp [h.kill j hj], (h.more i).st, h.inj, ?_, ?_, h.chain, h.dead⟩
          · intro u j hj
            rcases set_some hj with ⟨rfl, h1⟩ | ⟨h1, h2⟩
            · simp only [Option.some.injEq] at h1
              subst h1
              exact ⟨by simp, fun hj => hi (h.kill _ hj), hk, hst⟩
            · exact (h.more i).ld u j h2
          · intro u hu
            by_cases huv : u = v
            · subst huv; exact access_tgt ha
            · simp [set, huv] at hu
              exact h.tgt u (by simpa using hu)
    · next v ha =>
      unfold loadPart
      split
      · have := h.more i
        exact ⟨this.kill, this.st, this.inj, this.ld, this.tgt, this.chain, this.dead⟩
      · exact h.more i
  · refine ⟨fun j hj => by simp [h.kill j hj], ?_, ?_, ?_, ?_, h.chain, h.dead⟩ <;> simp
  · exact h.more i

/-- From one place of a block to another. -/
theorem sinv_from (hw : WellFormed f n) {l1 : List B} {b l2} (hb : f.blocks = l1 ++ b :: l2) : ∀ (mid pre post : List I) {done},
    f.all b = pre ++ (mid ++ post) → SInv f n done (stateAt f n l1 pre) → (done ++ mid).Nodup →
    SInv f n (done ++ mid) (stateAt f n l1 (pre ++ mid)) := by
  intro mid
  induction mid with
  | nil => intro pre post done _ h _; simpa using h
  | cons i mid ih =>
    intro pre post done hp h hn
    have hi : i ∉ done := by
      simp only [List.nodup_append, List.mem_cons] at hn
      intro hm
      exact hn.2.2 i hm i (.inl rfl) rfl
    have := ih (pre ++ [i]) post (done := done ++ [i]) (by simpa using hp) (SInv.step hw hb (by simpa using hp) h hi) (by simpa using hn)
    simpa using this

theorem sinv_blocks (hw : WellFormed f n) : ∀ (l l1 l2 : List B), f.blocks = l1 ++ (l ++ l2) →
    SInv f n (l1.flatMap f.all) (l1.foldl (f.block n) init) →
    SInv f n ((l1 ++ l).flatMap f.all) ((l1 ++ l).foldl (f.block n) init) := by
  intro l
  induction l with
  | nil => intro l1 l2 _ h; simpa using h
  | cons b l ih =>
    intro l1 l2 hb h
    have hn : ((l1 ++ [b]).flatMap f.all).Nodup := by
      have := hw.nodup
      rw [Func.insts, hb] at this
      have e : l1 ++ (b :: l ++ l2) = (l1 ++ [b]) ++ (l ++ l2) := by simp
      rw [e, List.flatMap_append, List.nodup_append] at this
      exact this.1
    have h1 := sinv_from hw (by simpa using hb) (f.all b) [] [] (by simp) (by simpa [stateAt] using h.enter) (by simpa using hn)
    have := ih (l1 ++ [b]) l2 (by simpa using hb) (by
      simpa [stateAt, Func.block] using h1)
    simpa using this

theorem sinv_start (hw : WellFormed f n) {l1 : List B} {l2} (hb : f.blocks = l1 ++ l2) :
    SInv f n (l1.flatMap f.all) (l1.foldl (f.block n) init) := by
  have := sinv_blocks hw l1 [] l2 (by simpa using hb) (by simpa using sinv_init)
  simpa using this

theorem sinv_at (hw : WellFormed f n) {l1 : List B} {b l2} (hb : f.blocks = l1 ++ b :: l2) {pre post : List I}
    (hp : f.all b = pre ++ post) : SInv f n (l1.flatMap f.all ++ pre) (stateAt f n l1 pre) := by
  have h := (sinv_start hw hb).enter
  have hn : (l1.flatMap f.all ++ pre).Nodup := by
    have := hw.nodup
    rw [Func.insts, hb, List.flatMap_append, List.flatMap_cons, hp] at this
    rw [List.nodup_append] at this ⊢
    refine ⟨this.1, ?_, ?_⟩
    · have := this.2.1
      rw [List.append_assoc, List.nodup_append] at this
      exact this.1
    · intro a ha c hc
      exact this.2.2 a ha c (by simp [hc])
  have := sinv_from hw hb pre [] post (by simpa using hp) (by simpa [stateAt] using h) hn
  simpa using this

theorem sinv_run (hw : WellFormed f n) : SInv f n f.insts (f.run n) := by
  have := sinv_start hw (l1 := f.blocks) (l2 := []) (by simp)
  exact this

/-- An instruction not yet met is not in what is done. -/
theorem fresh (hw : WellFormed f n) {l1 : List B} {b l2} (hb : f.blocks = l1 ++ b :: l2) {pre post : List I} {i}
    (hp : f.all b = pre ++ i :: post) : i ∉ l1.flatMap f.all ++ pre := by
  have := hw.nodup
  rw [Func.insts, hb, List.flatMap_append, List.flatMap_cons, hp] at this
  rw [List.nodup_append] at this
  intro hm
  simp only [List.mem_append] at hm
  rcases hm with hm | hm
  · exact this.2.2 i hm i (by simp) rfl
  · have h2 := this.2.1
    rw [List.append_assoc, List.nodup_append] at h2
    exact h2.2.2 i hm i (by simp) rfl

/-- What is remembered is from the block. -/
theorem local_at (hw : WellFormed f n) {l1 : List B} : ∀ (mid pre : List I),
    (∀ v j, (stateAt f n l1 pre).st v = some j ∨ (stateAt f n l1 pre).ld v = some j → j ∈ pre) →
    (∀ v j, (stateAt f n l1 (pre ++ mid)).st v = some j ∨ (stateAt f n l1 (pre ++ mid)).ld v = some j → j ∈ pre ++ mid) := by
  intro mid
  induction mid with
  | nil => intro pre h; simpa using h
  | cons i mid ih =>
    intro pre h
    have := ih (pre ++ [i]) (by
      rw [stateAt_snoc]
      generalize stateAt f n l1 pre = s at h
      intro v j hj
      simp only [List.mem_append, List.mem_singleton]
      suffices (s.st v = some j ∨ s.ld v = some j) ∨ j = i by
        rcases this with h1 | h1
        · exact .inl (h v j h1)
        · exact .inr h1
      unfold Func.step at hj
      split at hj
      · split at hj
        · exact .inl hj
        · simp only [Func.storeWhole] at hj
          split at hj
          · exact .inl hj
          · rcases hj with hj | hj
            · rcases set_some hj with ⟨-, h1⟩ | ⟨-, h1⟩
              · right; cases h1; rfl
              · exact .inl (.inl h1)
            · rcases set_some hj with ⟨-, h1⟩ | ⟨-, h1⟩
              · cases h1
              · exact .inl (.inr h1)
        · rcases hj with hj | hj
          · rcases set_some hj with ⟨-, h1⟩ | ⟨-, h1⟩
            · cases h1
            · exact .inl (.inl h1)
          · rcases set_some hj with ⟨-, h1⟩ | ⟨-, h1⟩
            · cases h1
            · exact .inl (.inr h1)
      · split at hj
        · exact .inl hj
        · simp only [Func.loadWhole] at hj
          split at hj
          · split at hj <;> exact .inl hj
          · split at hj
            · exact .inl hj
            · rcases hj with hj | hj
              · exact .inl (.inl hj)
              · rcases set_some hj with ⟨-, h1⟩ | ⟨-, h1⟩
                · right; cases h1; rfl
                · exact .inl (.inr h1)
        · simp only [loadPart] at hj
          split at hj <;> exact .inl hj
      · simp at hj
      · exact .inl hj)
    simpa using this

theorem local_st (hw : WellFormed f n) {l1 : List B} {pre v j} (h : (stateAt f n l1 pre).st v = some j) : j ∈ pre := by
  have := local_at hw (l1 := l1) pre [] (by simp [stateAt, enter]) v j
  simp only [List.nil_append] at this
  exact this (.inl h)

theorem local_ld (hw : WellFormed f n) {l1 : List B} {pre v j} (h : (stateAt f n l1 pre).ld v = some j) : j ∈ pre := by
  have := local_at hw (l1 := l1) pre [] (by simp [stateAt, enter]) v j
  simp only [List.nil_append] at this
  exact this (.inr h)

/-! ## Stores that are not removed -/

/-- The store `j` will not be removed any more. -/
def Safe (s : State I) (j : I) : Prop := j ∉ s.kill ∧ (j ∈ s.save ∨ ∀ v, s.st v ≠ some j)

theorem Safe.step {s : State I} {j i} (h : Safe s j) (hi : i ≠ j) : Safe (f.step n s i) j := by
  obtain ⟨h1, h2⟩ := h
  unfold Func.step
  split
  · next p w hk ho =>
    split
    · exact ⟨h1, h2⟩
    · next v ha =>
      unfold Func.storeWhole
      have hK : j ∉ f.killPrev s v := by
        unfold Func.killPrev
        split
        · next prev hp =>
          split
          · next hc =>
            simp only [List.mem_cons, not_or]
            refine ⟨?_, h1⟩
            rintro rfl
            rcases h2 with h2 | h2
            · exact hc.1 h2
            · exact h2 v hp
          · exact h1
        · exact h1
      split
      · refine ⟨?_, h2⟩
        simp only [List.mem_cons, not_or]
        exact ⟨fun h => hi h.symm, hK⟩
      · refine ⟨hK, ?_⟩
        rcases h2 with h2 | h2
        · exact .inl h2
        · right
          intro u hu
          rcases set_some hu with ⟨-, h3⟩ | ⟨-, h3⟩
          · cases h3; exact hi rfl
          · exact h2 u h3
    · refine ⟨h1, ?_⟩
      rcases h2 with h2 | h2
      · exact .inl h2
      · right
        intro u hu
        rcases set_some hu with ⟨-, h3⟩ | ⟨-, h3⟩
        · cases h3
        · exact h2 u h3
  · split
    · exact ⟨h1, h2⟩
    · unfold Func.loadWhole
      split
      · split
        · refine ⟨?_, h2⟩
          simp only [List.mem_cons, not_or]
          exact ⟨fun h => hi h.symm, h1⟩
        · exact ⟨h1, h2⟩
      · split
        · refine ⟨?_, h2⟩
          simp only [List.mem_cons, not_or]
          exact ⟨fun h => hi h.symm, h1⟩
        · exact ⟨h1, h2⟩
    · unfold loadPart
      split
      · refine ⟨h1, ?_⟩
        rcases h2 with h2 | h2
        · exact .inl (by simp [h2])
        · exact .inr h2
      · exact ⟨h1, h2⟩
  · exact ⟨h1, .inr (by simp)⟩
  · exact ⟨h1, h2⟩

theorem Safe.enter {s : State I} {j} (h : j ∉ s.kill) : Safe (enter s) j := ⟨h, .inr (by simp [LocalElim.enter])⟩

theorem Safe.steps {j} : ∀ (l : List I) {s : State I}, Safe s j → j ∉ l → Safe (l.foldl (f.step n) s) j := by
  intro l
  induction l with
  | nil => intro s h _; exact h
  | cons i l ih =>
    intro s h hj
    simp only [List.mem_cons, not_or] at hj
    exact ih (h.step (Ne.symm hj.1)) hj.2

theorem Safe.blocks {j} : ∀ (l : List B) {s : State I}, j ∉ s.kill → j ∉ l.flatMap f.all → j ∉ (l.foldl (f.block n) s).kill := by
  intro l
  induction l with
  | nil => intro s h _; exact h
  | cons b l ih =>
    intro s h hj
    simp only [List.flatMap_cons, List.mem_append, not_or] at hj
    exact ih (Safe.steps _ (Safe.enter h) hj.1).1 hj.2

/-- A store that is safe at some place of the pass stays. -/
theorem Safe.run (hw : WellFormed f n) {l1 : List B} {b l2} (hb : f.blocks = l1 ++ b :: l2) {pre post : List I}
    (hp : f.all b = pre ++ post) {j} (hj : j ∈ pre) (h : Safe (stateAt f n l1 pre) j) : f.removed n j = false := by
  have hn := hw.nodup
  rw [Func.insts, hb, List.flatMap_append, List.flatMap_cons, hp, List.nodup_append] at hn
  have hn2 := hn.2.1
  rw [List.nodup_append] at hn2
  have h1 : j ∉ post := by
    have := hn2.1
    rw [List.nodup_append] at this
    intro hm
    exact this.2.2 j hj j hm rfl
  have h2 : j ∉ l2.flatMap f.all := by
    intro hm
    exact hn2.2.2 j (by simp [hj]) j hm rfl
  have e : f.run n = l2.foldl (f.block n) (post.foldl (f.step n) (stateAt f n l1 pre)) := by
    simp [Func.run, hb, stateAt, Func.block, hp]
  simp only [Func.removed, decide_eq_false_iff_not]
  rw [e]
  exact Safe.blocks l2 (Safe.steps post h h1).1 h2

end Verif.LocalElim
