import Verif.SingleStore.Exec
set_option linter.unusedSimpArgs false
set_option linter.unusedVariables false
set_option linter.unusedSectionVars false
/-!
# Which loads are removed
-/
namespace Verif.SingleStore
open Verif.SsaExec Verif.SingleStore.Spec
variable {I B V R : Type} [DecidableEq I] {f : Func I B} {n : Nat} {S : Base I B V R}

theorem count_flatMap {g : I → List I} {a : I} : ∀ (l : List I), l.Nodup → (∀ u ∈ l, (g u).count a ≤ 1) →
    (∀ u ∈ l, ∀ u' ∈ l, a ∈ g u → a ∈ g u' → u = u') → (l.flatMap g).count a ≤ 1 := by
  intro l
  induction l with
  | nil => intros; simp
  | cons u l ih =>
    intro hn h1 h2
    rw [List.nodup_cons] at hn
    rw [List.flatMap_cons, List.count_append]
    by_cases ha : a ∈ g u
    · have : (l.flatMap g).count a = 0 := by
        rw [List.count_eq_zero]
        intro hm
        rw [List.mem_flatMap] at hm
        obtain ⟨u', h3, h4⟩ := hm
        have := h2 u (by simp) u' (by simp [h3]) ha h4
        subst this
        exact hn.1 h3
      have := h1 u (by simp)
      omega
    · have h3 : (g u).count a = 0 := List.count_eq_zero.mpr ha
      have := ih hn.2 (fun x hx => h1 x (by simp [hx])) fun x hx y hy => h2 x (by simp [hx]) y (by simp [hy])
      omega

theorem direct_level {k p v} (h : Direct f k p v) : ∀ {k' v'}, Direct f k' p v' → k = k' := by
  induction h with
  | here h =>
    intro k' v' h'
    cases h' with
    | here => rfl
    | chain h1 => rw [h] at h1; cases h1
    | copy h1 => rw [h] at h1; cases h1
  | chain h1 h2 _ ih =>
    intro k' v' h'
    cases h' with
    | here h => rw [h1] at h; cases h
    | chain _ h3 h4 => rw [h2] at h3; cases h3; rw [ih h4]
    | copy h3 => rw [h1] at h3; cases h3
  | copy h1 h2 _ ih =>
    intro k' v' h'
    cases h' with
    | here h => rw [h1] at h; cases h
    | chain h3 => rw [h1] at h3; cases h3
    | copy _ h3 h4 => rw [h2] at h3; cases h3; rw [ih h4]

theorem below_unique {u j p} (h : Below f u j p) : ∀ {u'}, Below f u' j p → u = u' := by
  induction h with
  | here => intro u' h'; cases h'; rfl
  | chain h1 h2 _ ih =>
    intro u' h'
    cases h' with
    | chain _ h3 h4 => rw [h2] at h3; cases h3; exact ih h4
    | copy h3 => rw [h1] at h3; cases h3
  | copy h1 h2 _ ih =>
    intro u' h'
    cases h' with
    | chain h3 => rw [h1] at h3; cases h3
    | copy _ h3 h4 => rw [h2] at h3; cases h3; exact ih h4

theorem below_head {u p} : ∀ {j q}, Below f u j q → f.kind u = .copy → f.ops u = [p] → Below f p (j + 1) q := by
  intro j q h
  induction h with
  | here => intro h1 h2; exact .copy h1 h2 .here
  | chain h1 h2 _ ih => intro h3 h4; exact .chain h1 h2 (ih h3 h4)
  | copy h1 h2 _ ih => intro h3 h4; exact .copy h1 h2 (ih h3 h4)

section
variable (hw : WellFormed f n) (hv : Valid f.code fun d => S.start d ≠ none) (hI : Initial f S)
  (hA : ∀ i ∈ f.insts, f.kind i = .store → ∀ p w, f.ops i = [p, w] → ∀ k v, ¬ Direct f k w v)
include hw hv hI hA

theorem findUses_below {s : State I} (h : SInv f s) : ∀ (m : Nat) {k p v u}, CopyOf f k p v → u ∈ f.findUses s m p →
    ∃ j q, Below f p j q ∧ CopyOf f (k + j) q v ∧ u ∈ f.users s q := by
  intro m
  induction m with
  | zero => intro k p v u _ hu; simp [Func.findUses] at hu
  | succ m ih =>
    intro k p v u hc hu
    simp only [Func.findUses, List.mem_flatMap, List.mem_cons] at hu
    obtain ⟨u', h1, rfl | h2⟩ := hu
    · exact ⟨0, p, .here, hc, h1⟩
    · split at h2
      · next hk =>
        obtain ⟨q, ho⟩ := hw.copy u' hk
        rw [mem_users hw hv hI hA h hc.direct] at h1
        have : p ∈ f.ops u' := by
          rcases h1.2.2 with h3 | ⟨b, h3⟩
          · exact h3
          · rw [hw.args u' (by simp [hk])] at h3; cases h3
        rw [ho] at this
        simp at this
        subst this
        obtain ⟨j, q, h3, h4, h5⟩ := ih (.copy hk ho hc) h2
        exact ⟨j + 1, q, below_head h3 hk ho, by rw [show k + (j + 1) = k + 1 + j by omega]; exact h4, h5⟩
      · cases h2

/-- A store is a user of its pointer only. -/
theorem store_user {s : State I} (h : SInv f s) {st k q v} (hk : f.kind st = .store) (hd : Direct f k q v) (hu : st ∈ f.users s q) :
    ∃ w, f.ops st = [q, w] := by
  rw [mem_users hw hv hI hA h hd] at hu
  obtain ⟨p, w, ho⟩ := hw.store st hk
  rcases hu.2.2 with h1 | ⟨b, h1⟩
  · simp only [ho, List.mem_cons, List.not_mem_nil, or_false] at h1
    rcases h1 with rfl | rfl
    · exact ⟨w, ho⟩
    · exact absurd hd (hA st hu.1 hk p q ho k v)
  · rw [hw.args st (by simp [hk])] at h1; cases h1

theorem copy_user {s : State I} (h : SInv f s) {u k p v} (hk : f.kind u = .copy) (hd : CopyOf f k p v) (hu : u ∈ f.users s p) :
    CopyOf f (k + 1) u v := by
  rw [mem_users hw hv hI hA h hd.direct] at hu
  obtain ⟨q, ho⟩ := hw.copy u hk
  rcases hu.2.2 with h1 | ⟨b, h1⟩
  · simp only [ho, List.mem_cons, List.not_mem_nil, or_false] at h1
    subst h1
    exact .copy hk ho hd
  · rw [hw.args u (by simp [hk])] at h1; cases h1

/-- The store is come across once. -/
theorem store_once {s : State I} (h : SInv f s) {st v} (hk : f.kind st = .store) : ∀ (m : Nat) {k p}, CopyOf f k p v →
    (f.findUses s m p).count st ≤ 1 := by
  intro m
  induction m with
  | zero => intro k p _; simp [Func.findUses]
  | succ m ih =>
    intro k p hc
    rw [Func.findUses]
    refine count_flatMap _ ?_ ?_ ?_
    · exact List.Nodup.sublist List.filter_sublist hw.nodup
    · intro u hu
      by_cases hus : u = st
      · subst hus
        simp [hk]
      · rw [List.count_cons]
        simp only [beq_iff_eq, hus, if_false, Nat.add_zero]
        split
        · next hc1 => exact ih (copy_user hw hv hI hA h hc1 hc hu)
        · simp
    · intro u hu u' hu' h1 h2
      -- where the store is below a copy
      have sub : ∀ x, x ∈ f.users s p → st ∈ (x :: if f.kind x = .copy then f.findUses s m x else []) → x ≠ st →
          f.kind x = .copy ∧ ∃ j q w, Below f x j q ∧ CopyOf f (k + 1 + j) q v ∧ f.ops st = [q, w] := by
        intro x hx hm hne
        simp only [List.mem_cons, Ne.symm hne, false_or] at hm
        split at hm
        · next hkx =>
          obtain ⟨j, q, h3, h4, h5⟩ := findUses_below hw hv hI hA h m (copy_user hw hv hI hA h hkx hc hx) hm
          obtain ⟨w, ho⟩ := store_user hw hv hI hA h hk h4.direct h5
          exact ⟨hkx, j, q, w, h3, h4, ho⟩
        · cases hm
      have clash : ∀ x, x ∈ f.users s p → st ∈ (x :: if f.kind x = .copy then f.findUses s m x else []) → x ≠ st → st ∈ f.users s p → False := by
        intro x hx hm hne hs
        obtain ⟨-, j, q, w, h3, h4, h5⟩ := sub x hx hm hne
        obtain ⟨w', h6⟩ := store_user hw hv hI hA h hk hc.direct hs
        rw [h5] at h6
        cases h6
        have := direct_level hc.direct h4.direct
        omega
      by_cases e1 : u = st
      · by_cases e2 : u' = st
        · rw [e1, e2]
        · exact (clash u' hu' h2 e2 (e1 ▸ hu)).elim
      · by_cases e2 : u' = st
        · exact (clash u hu h1 e1 (e2 ▸ hu')).elim
        · obtain ⟨-, j, q, w, h3, h4, h5⟩ := sub u hu h1 e1
          obtain ⟨-, j', q', w', h3', h4', h5'⟩ := sub u' hu' h2 e2
          rw [h5] at h5'
          cases h5'
          have := direct_level h4.direct h4'.direct
          have : j = j' := by omega
          subst this
          exact below_unique h3 h3'

omit hw hv hI hA in
theorem copy_kind {k p v} (h : CopyOf f k p v) : f.kind p ≠ .chain := by
  cases h with
  | here h => simp [h]
  | copy h => simp [h]

theorem feeds_false {s : State I} (h : SInv f s) {v st e} (hs : Single f v st e) (hp : Plain f v) : ∀ (m : Nat) {k p},
    Direct f k p v → (∀ k, ¬ CopyOf f k p v) → n ≤ m + k → f.feedsStore s m p = false := by
  intro m
  induction m with
  | zero =>
    intro k p hd _ hn
    have := hw.deep k p v hd
    omega
  | succ m ih =>
    intro k p hd hc hn
    rw [Func.feedsStore, List.any_eq_false]
    intro u hu
    rw [mem_users hw hv hI hA h hd] at hu
    obtain ⟨hin, -, hup⟩ := hu
    have hops : f.kind u ≠ .other → p ∈ f.ops u := by
      intro hk
      rcases hup with h1 | ⟨b, h1⟩
      · exact h1
      · rw [hw.args u hk] at h1; cases h1
    rcases hs.priv k p hd u hin hup with h1 | h1 | h1 | h1 | h1 | ⟨h1, h2⟩
    · simp [h1]
    · obtain ⟨q, r, ho⟩ := hw.chain u h1
      have h2 := hops (by simp [h1])
      have h3 := hp.index u k p h1 hd
      simp only [ho, List.mem_cons, List.tail_cons] at h2 h3
      rcases h2 with rfl | h2
      · simp only [h1]
        rw [ih (.chain h1 ho hd) (fun k' hc' => copy_kind hc' h1) (by omega)]
        simp
      · exact absurd h2 h3
    · obtain ⟨q, ho⟩ := hw.copy u h1
      have h2 := hops (by simp [h1])
      simp only [ho, List.mem_cons, List.not_mem_nil, or_false] at h2
      subst h2
      simp only [h1]
      rw [ih (.copy h1 ho hd) ?_ (by omega)]
      · simp
      · intro k' hc'
        cases hc' with
        | here h => rw [h1] at h; cases h
        | copy _ h3 h4 =>
          rw [ho] at h3
          cases h3
          exact hc _ h4
    · exact absurd (hp.debug u k p hin h1 hd (hops (by simp [h1]))) (hc k)
    · simp [h1]
    · obtain ⟨q, w, ho⟩ := hw.store u h1
      have h3 := hops (by simp [h1])
      have h4 := h2 q w ho
      simp only [ho, List.mem_cons, List.not_mem_nil, or_false] at h3
      rcases h3 with rfl | h3
      · obtain ⟨rfl, h5⟩ := hs.only k p u w hd hin h1 ho
        rcases hs.what with ⟨-, -, -, q', k', ho', hc'⟩ | ⟨rfl, -⟩
        · rw [ho] at ho'
          cases ho'
          exact absurd hc' (hc k')
        · have := hs.var
          rw [h1] at this
          cases this
      · exact absurd h3.symm h4

omit hw hv hI hA in
theorem check_ok {s : State I} {st} : ∀ (us : List I),
    (∀ u ∈ us, (f.kind u = .store → u = st) ∧ (f.kind u = .chain → f.feedsStore s n u = false) ∧ f.kind u ≠ .other ∧ f.kind u ≠ .variable) →
    (st ∉ us → ∀ o, f.check s n us o = o) ∧ (f.kind st = .store → us.count st = 1 → f.check s n us none = some st) := by
  intro us
  induction us with
  | nil => intro _; simp [Func.check]
  | cons u us ih =>
    intro hu
    obtain ⟨h1, h2⟩ := ih fun x hx => hu x (by simp [hx])
    obtain ⟨h3, h4, h5, h6⟩ := hu u (by simp)
    have step : ∀ o, u ≠ st → f.check s n (u :: us) o = f.check s n us o := by
      intro o hne
      cases hk : f.kind u with
      | store => exact absurd (h3 hk) hne
      | chain => simp [Func.check, hk, h4 hk]
      | other => exact absurd hk h5
      | «variable» => exact absurd hk h6
      | _ => simp [Func.check, hk]
    constructor
    · intro hm o
      simp only [List.mem_cons, not_or] at hm
      rw [step o (Ne.symm hm.1)]
      exact h1 hm.2 o
    · intro hk hc
      by_cases hus : u = st
      · subst hus
        have : u ∉ us := by
          rw [List.count_cons] at hc
          simp at hc
          exact List.count_eq_zero.mp hc
        simp only [Func.check, hk]
        exact h1 this _
      · rw [step none hus]
        apply h2 hk
        rw [List.count_cons] at hc
        simpa [hus] using hc

theorem single_complete {s : State I} (h : SInv f s) {v st e} (hs : Single f v st e) (hp : Plain f v) :
    f.single s n v = some st := by
  have hall : ∀ u ∈ f.findUses s n v, (f.kind u = .store → u = st ∧ f.kind st = .store) ∧ (f.kind u = .chain → f.feedsStore s n u = false) ∧
      f.kind u ≠ .other ∧ f.kind u ≠ .variable := by
    intro u hu
    rw [mem_findUses hw hv hI hA h hs.var] at hu
    obtain ⟨k, q, hc, hu⟩ := hu
    have hu0 := hu
    rw [mem_users hw hv hI hA h hc.direct] at hu
    have hpr := hs.priv k q hc.direct u hu.1 hu.2.2
    refine ⟨?_, ?_, ?_, ?_⟩
    · intro hk
      obtain ⟨w, ho⟩ := store_user hw hv hI hA h hk hc.direct hu0
      exact hs.only k q u w hc.direct hu.1 hk ho
    · intro hk
      obtain ⟨p, r, ho⟩ := hw.chain u hk
      have hq : q ∈ f.ops u := by
        rcases hu.2.2 with h1 | ⟨b, h1⟩
        · exact h1
        · rw [hw.args u (by simp [hk])] at h1; cases h1
      have h3 := hp.index u k q hk hc.direct
      simp only [ho, List.mem_cons, List.tail_cons] at hq h3
      rcases hq with rfl | hq
      · exact feeds_false hw hv hI hA h hs hp n (.chain hk ho hc.direct) (fun k' hc' => copy_kind hc' hk) (by omega)
      · exact absurd hq h3
    · intro hk
      rw [hk] at hpr
      simp at hpr
    · intro hk
      rw [hk] at hpr
      simp at hpr
  have hok := check_ok (n := n) (s := s) (st := st) (f.findUses s n v) fun u hu => ⟨fun hk => ((hall u hu).1 hk).1, (hall u hu).2⟩
  unfold Func.single
  rcases hs.what with ⟨hk, hov, hin, q, k, ho, hc⟩ | ⟨rfl, ho⟩
  · rw [if_pos hov]
    apply hok.2 hk
    have h1 := store_once hw hv hI hA h hk n (.here hs.var)
    have h2 : st ∈ f.findUses s n v := by
      rw [mem_findUses hw hv hI hA h hs.var]
      exact ⟨k, q, hc, (mem_users hw hv hI hA h hc.direct).2 ⟨hin, not_killed hw hv hI hA h (by simp [hk]), .inl (by simp [ho])⟩⟩
    have := List.count_pos_iff.mpr h2
    omega
  · have : f.ops st ≠ [] := by simp [ho]
    rw [if_neg this]
    apply hok.1
    intro hm
    exact (hall st hm).2.2.2 hs.var

omit hw hv hI hA in
theorem kill_rewrite {st w u : I} {s : State I} {j} (h : j ∈ s.kill) : j ∈ (f.rewrite st w s u).kill := by
  unfold Func.rewrite
  split
  · simp [h]
  · exact h

omit hw hv hI hA in
theorem kill_rewrites {st w : I} {j} : ∀ (us : List I) {s : State I}, j ∈ s.kill → j ∈ (us.foldl (f.rewrite st w) s).kill := by
  intro us
  induction us with
  | nil => intro s h; exact h
  | cons u us ih => intro s h; exact ih (kill_rewrite h)

omit hw hv hI hA in
theorem rewrites_kill {st w : I} {j} (hk : f.kind j = .load) (hd : f.dom st j = true) : ∀ (us : List I) {s : State I}, j ∈ us →
    j ∈ (us.foldl (f.rewrite st w) s).kill := by
  intro us
  induction us with
  | nil => intro s h; cases h
  | cons u us ih =>
    intro s h
    simp only [List.mem_cons] at h
    rcases h with rfl | h
    · exact kill_rewrites us (by simp [Func.rewrite, hk, hd])
    · exact ih h

omit hw hv hI hA in
theorem kill_process {j} {s : State I} {v} (h : j ∈ s.kill) : j ∈ (f.process n s v).kill := by
  unfold Func.process
  split
  · exact h
  · split
    · exact h
    · exact kill_rewrites _ h

theorem removed_fold {v st e d p k} (hs : Single f v st e) (hp : Plain f v) (hk : f.kind d = .load) (ho : f.ops d = [p])
    (hc : CopyOf f k p v) (hd : f.dom st d = true) : ∀ (l : List I) {s : State I}, SInv f s → (∀ x ∈ l, f.kind x = .variable) →
    (d ∈ s.kill ∨ v ∈ l) → d ∈ (l.foldl (f.process n) s).kill := by
  intro l
  induction l with
  | nil => intro s _ _ h; simpa using h
  | cons x l ih =>
    intro s h hl hor
    refine ih (h.process hw hv hI hA (hl x (by simp))) (fun y hy => hl y (by simp [hy])) ?_
    rcases hor with hor | hor
    · exact .inl (kill_process hor)
    · simp only [List.mem_cons] at hor
      rcases hor with rfl | hor
      · left
        by_cases hm : d ∈ s.kill
        · exact kill_process hm
        · have h1 := single_complete hw hv hI hA h hs hp
          obtain ⟨e', -, h2⟩ := single_sound hw hv hI hA h hs.var h1
          unfold Func.process
          rw [h1]
          simp only [h2]
          refine rewrites_kill hk hd _ ?_
          rw [mem_findUses hw hv hI hA h hs.var]
          exact ⟨k, p, hc, (mem_users hw hv hI hA h hc.direct).2 ⟨hw.inside d (by simp [hk]), hm, .inl (by simp [ho])⟩⟩
      · exact .inr hor

end
end Verif.SingleStore
