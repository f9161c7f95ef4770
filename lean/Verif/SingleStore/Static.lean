import Verif.SingleStore.Spec
set_option linter.unusedSimpArgs false
set_option linter.unusedVariables false
set_option linter.unusedSectionVars false
/-!
# What the pass finds out about a variable is right
-/
namespace Verif.SingleStore
open Verif.SsaExec Verif.SingleStore.Spec
variable {I B V R : Type} [DecidableEq I] {f : Func I B} {n : Nat} {S : Base I B V R}
  {clean : V → Prop} {cleanRest : R → Prop}

/-- The load `d` is replaced by `e`. -/
def Fwd (f : Func I B) (d e : I) : Prop :=
  ∃ v st p k, Single f v st e ∧ f.kind d = .load ∧ f.ops d = [p] ∧ CopyOf f k p v ∧ f.dom st d = true

theorem Fwd.kind {d e} (h : Fwd f d e) : f.kind d = .load := by
  obtain ⟨_, _, _, _, _, h, _⟩ := h
  exact h

theorem Spec.CopyOf.direct {k p v} (h : CopyOf f k p v) : Direct f k p v := by
  induction h with
  | here h => exact .here h
  | copy h1 h2 _ ih => exact .copy h1 h2 ih

theorem direct_kind {k p v} (h : Direct f k p v) : f.kind p = .variable ∨ f.kind p = .chain ∨ f.kind p = .copy := by
  cases h with
  | here h => exact .inl h
  | chain h => exact .inr (.inl h)
  | copy h => exact .inr (.inr h)

theorem direct_var {k p v} (h : Direct f k p v) : f.kind v = .variable := by
  induction h with
  | here h => exact h
  | chain _ _ _ ih => exact ih
  | copy _ _ _ ih => exact ih

theorem direct_fun {k p v} (h : Direct f k p v) : ∀ {k' v'}, Direct f k' p v' → v = v' := by
  induction h with
  | here h =>
    intro k' v' h'
    cases h' with
    | here => rfl
    | chain h1 => rw [h] at h1; cases h1
    | copy h1 => rw [h] at h1; cases h1
  | chain h1 h2 _ ih =>
    intro k' v' h'
    cases h' with
    | here h => rw [h1] at h; cases h
    | chain _ h3 h4 => rw [h2] at h3; cases h3; exact ih h4
    | copy h3 => rw [h1] at h3; cases h3
  | copy h1 h2 _ ih =>
    intro k' v' h'
    cases h' with
    | here h => rw [h1] at h; cases h
    | chain h3 => rw [h1] at h3; cases h3
    | copy _ h3 h4 => rw [h2] at h3; cases h3; exact ih h4

/-- What holds of the state. -/
structure SInv (f : Func I B) (s : State I) : Prop where
  chain : ∀ d, Chain (Fwd f) d (s.sub d)
  dead : ∀ j ∈ s.kill, (∃ e, Fwd f j e) ∧ ((∀ d, s.sub d ≠ j) ∨ ∃ e, Fwd f j e ∧ Chain (Fwd f) e j)

theorem sinv_init : SInv f (⟨id, []⟩ : State I) := ⟨fun _ => .refl _, by simp⟩

section
variable (hw : WellFormed f n) (hv : Valid f.code fun d => S.start d ≠ none) (hI : Initial f S)
  (hA : ∀ i ∈ f.insts, f.kind i = .store → ∀ p w, f.ops i = [p, w] → ∀ k v, ¬ Direct f k w v)
include hw hv hI hA

theorem start_none {p} (hk : f.kind p ≠ .other) : S.start p = none := by
  have := hw.inside p hk
  simp only [Func.insts, List.mem_flatMap] at this
  obtain ⟨b, -, hb⟩ := this
  have := hv.inside b p hb
  simpa using this

/-- What is used instead is not a pointer to a variable. -/
theorem fwd_not_direct {d e} (h : Fwd f d e) {k v} : ¬ Direct f k e v := by
  intro hd
  obtain ⟨u, st, p, k', hs, -⟩ := h
  rcases hs.what with ⟨hk, -, hin, q, kk, ho, -⟩ | ⟨-, ho⟩
  · exact hA st hin hk q e ho k v hd
  · have h1 := hI u e hs.var ho
    have : S.start e = none := start_none hw hv hI hA (by rcases direct_kind hd with h | h | h <;> simp [h])
    rw [this] at h1
    cases h1

theorem chain_last {d e} (h : Chain (Fwd f) d e) : d = e ∨ ∃ d', Fwd f d' e := by
  induction h with
  | refl => exact .inl rfl
  | @cons d e e' h1 _ ih =>
    rcases ih with rfl | ih
    · exact .inr ⟨d, h1⟩
    · exact .inr ih

theorem sub_direct {s : State I} (h : SInv f s) {k p v} (hd : Direct f k p v) {d} : s.sub d = p ↔ d = p := by
  constructor
  · intro hs
    have hc := h.chain d
    rw [hs] at hc
    rcases chain_last hw hv hI hA hc with h1 | ⟨d', h1⟩
    · exact h1
    · exact absurd hd (fwd_not_direct hw hv hI hA h1)
  · rintro rfl
    have hc := h.chain d
    generalize s.sub d = e at hc
    cases hc with
    | refl => rfl
    | cons h1 _ =>
      have := h1.kind
      rcases direct_kind hd with h | h | h <;> rw [h] at this <;> cases this

theorem mem_users {s : State I} (h : SInv f s) {k p v} (hd : Direct f k p v) {u} :
    u ∈ f.users s p ↔ u ∈ f.insts ∧ u ∉ s.kill ∧ (p ∈ f.ops u ∨ ∃ b, (p, b) ∈ f.args u) := by
  simp only [Func.users, List.mem_filter, Bool.and_eq_true, Bool.or_eq_true, decide_eq_true_eq, List.mem_map]
  have h1 : (∃ a ∈ f.ops u, s.sub a = p) ↔ p ∈ f.ops u := by
    constructor
    · rintro ⟨a, h1, h2⟩
      rw [sub_direct hw hv hI hA h hd] at h2
      exact h2 ▸ h1
    · intro h1
      exact ⟨p, h1, (sub_direct hw hv hI hA h hd).2 rfl⟩
  have h2 : (∃ a ∈ f.args u, s.sub a.1 = p) ↔ ∃ b, (p, b) ∈ f.args u := by
    constructor
    · rintro ⟨⟨a, b⟩, h1, h2⟩
      simp only at h2
      rw [sub_direct hw hv hI hA h hd] at h2
      exact ⟨b, h2 ▸ h1⟩
    · rintro ⟨b, h1⟩
      exact ⟨(p, b), h1, (sub_direct hw hv hI hA h hd).2 rfl⟩
  rw [h1, h2]

theorem not_killed {s : State I} (h : SInv f s) {u} (hk : f.kind u ≠ .load) : u ∉ s.kill :=
  fun hm => hk (h.dead u hm).1.choose_spec.kind

/-- The uses found are those of copies of the variable. -/
theorem findUses_sound {s : State I} (h : SInv f s) : ∀ (m : Nat) {k p v u}, CopyOf f k p v → u ∈ f.findUses s m p →
    ∃ k' q, CopyOf f k' q v ∧ u ∈ f.users s q := by
  intro m
  induction m with
  | zero => intro k p v u _ hu; simp [Func.findUses] at hu
  | succ m ih =>
    intro k p v u hc hu
    simp only [Func.findUses, List.mem_flatMap, List.mem_cons] at hu
    obtain ⟨u', h1, rfl | h2⟩ := hu
    · exact ⟨k, p, hc, h1⟩
    · split at h2
      · next hk =>
        obtain ⟨q, ho⟩ := hw.copy u' hk
        rw [mem_users hw hv hI hA h hc.direct] at h1
        have : p ∈ f.ops u' := by
          rcases h1.2.2 with h3 | ⟨b, h3⟩
          · exact h3
          · rw [hw.args u' (by simp [hk])] at h3; cases h3
        rw [ho] at this
        simp at this
        subst this
        exact ih (.copy hk ho hc) h2
      · cases h2

theorem findUses_complete {s : State I} (h : SInv f s) {v} : ∀ {k q}, CopyOf f k q v → ∀ {m u}, k < m →
    u ∈ f.findUses s (m - k) q → u ∈ f.findUses s m v := by
  intro k q hc
  induction hc with
  | here => intro m u _ hu; exact hu
  | @copy k p q v h1 h2 hc ih =>
    intro m u hk hu
    apply ih (by omega)
    have e : m - k = (m - (k + 1)) + 1 := by omega
    rw [e, Func.findUses, List.mem_flatMap]
    refine ⟨q, ?_, ?_⟩
    · rw [mem_users hw hv hI hA h hc.direct]
      exact ⟨hw.inside q (by simp [h1]), not_killed hw hv hI hA h (by simp [h1]), .inl (by simp [h2])⟩
    · simp [h1, hu]

theorem mem_findUses {s : State I} (h : SInv f s) {v} (hk : f.kind v = .variable) {u} :
    u ∈ f.findUses s n v ↔ ∃ k q, CopyOf f k q v ∧ u ∈ f.users s q := by
  constructor
  · exact findUses_sound hw hv hI hA h n (.here hk)
  · rintro ⟨k, q, hc, hu⟩
    have hn := hw.deep k q v hc.direct
    apply findUses_complete hw hv hI hA h hc hn
    have e : n - k = (n - (k + 1)) + 1 := by omega
    rw [e, Func.findUses, List.mem_flatMap]
    exact ⟨u, hu, by simp⟩

/-- Pointers made from `u`. -/
inductive Below (f : Func I B) (u : I) : Nat → I → Prop where
  | here : Below f u 0 u
  | chain {k p q r} : f.kind q = .chain → f.ops q = p :: r → Below f u k p → Below f u (k + 1) q
  | copy {k p q} : f.kind q = .copy → f.ops q = [p] → Below f u k p → Below f u (k + 1) q

theorem direct_split {k p v} (h : Direct f k p v) : CopyOf f k p v ∨
    ∃ k1 q u r k2, CopyOf f k1 q v ∧ f.kind u = .chain ∧ f.ops u = q :: r ∧ Below f u k2 p := by
  induction h with
  | here h => exact .inl (.here h)
  | @chain k p q r v h1 h2 hd ih =>
    right
    rcases ih with ih | ⟨k1, q', u, r', k2, h3, h4, h5, h6⟩
    · exact ⟨k, p, q, r, 0, ih, h1, h2, .here⟩
    · exact ⟨k1, q', u, r', k2 + 1, h3, h4, h5, .chain h1 h2 h6⟩
  | copy h1 h2 hd ih =>
    rcases ih with ih | ⟨k1, q', u, r', k2, h3, h4, h5, h6⟩
    · exact .inl (.copy h1 h2 ih)
    · exact .inr ⟨k1, q', u, r', k2 + 1, h3, h4, h5, .copy h1 h2 h6⟩

theorem below_direct {u k p} (h : Below f u k p) : ∀ {k0 v}, Direct f k0 u v → Direct f (k0 + k) p v := by
  induction h with
  | here => intro k0 v h; exact h
  | chain h1 h2 _ ih => intro k0 v h; exact .chain h1 h2 (ih h)
  | copy h1 h2 _ ih => intro k0 v h; exact .copy h1 h2 (ih h)

theorem feeds_below {s : State I} (h : SInv f s) {u k p} (hb : Below f u k p) : ∀ {k0 v}, Direct f k0 u v → ∀ {m}, k < m →
    f.feedsStore s m u = false → f.feedsStore s (m - k) p = false := by
  induction hb with
  | here => intro k0 v _ m _ hf; exact hf
  | @chain k p q r h1 h2 hb ih =>
    intro k0 v hd m hk hf
    have := ih hd (by omega) hf
    have e : m - k = (m - (k + 1)) + 1 := by omega
    rw [e, Func.feedsStore, List.any_eq_false] at this
    have h3 := this q (by
      rw [mem_users hw hv hI hA h (below_direct hw hv hI hA hb hd)]
      exact ⟨hw.inside q (by simp [h1]), not_killed hw hv hI hA h (by simp [h1]), .inl (by simp [h2])⟩)
    simpa [h1] using h3
  | @copy k p q h1 h2 hb ih =>
    intro k0 v hd m hk hf
    have := ih hd (by omega) hf
    have e : m - k = (m - (k + 1)) + 1 := by omega
    rw [e, Func.feedsStore, List.any_eq_false] at this
    have h3 := this q (by
      rw [mem_users hw hv hI hA h (below_direct hw hv hI hA hb hd)]
      exact ⟨hw.inside q (by simp [h1]), not_killed hw hv hI hA h (by simp [h1]), .inl (by simp [h2])⟩)
    simpa [h1] using h3

/-- Nothing below a chain that does not feed a store is stored through or gets anywhere else. -/
theorem feeds_users {s : State I} (h : SInv f s) {u k p} (hb : Below f u k p) {k0 v} (hd : Direct f k0 u v)
    (hf : f.feedsStore s n u = false) {x} (hx : x ∈ f.insts) (hp : p ∈ f.ops x ∨ ∃ b, (p, b) ∈ f.args x) :
    f.kind x = .load ∨ f.kind x = .chain ∨ f.kind x = .copy ∨ f.kind x = .texel := by
  by_cases hl : f.kind x = .load
  · exact .inl hl
  have hdp := below_direct hw hv hI hA hb hd
  have hk := hw.deep _ _ _ hdp
  have h1 := feeds_below hw hv hI hA h hb hd (by omega) hf
  have e : n - k = (n - (k + 1)) + 1 := by omega
  rw [e, Func.feedsStore, List.any_eq_false] at h1
  have h2 := h1 x (by
    rw [mem_users hw hv hI hA h hdp]
    exact ⟨hx, not_killed hw hv hI hA h hl, hp⟩)
  cases hkx : f.kind x <;> simp_all

theorem check_some {s : State I} : ∀ (us : List I) {st r}, f.check s n us st = some r →
    (∀ u ∈ us, (f.kind u = .store → u = r ∧ st = none) ∧ (f.kind u = .chain → f.feedsStore s n u = false) ∧
      f.kind u ≠ .other ∧ f.kind u ≠ .variable) ∧
    (∀ x, st = some x → r = x) ∧ (st = none → r ∈ us ∧ f.kind r = .store) := by
  intro us
  induction us with
  | nil => intro st r h; simp [Func.check] at h; simp [h]
  | cons u us ih =>
    intro st r h
    unfold Func.check at h
    have skip : f.check s n us st = some r → f.kind u ≠ .store → (f.kind u = .chain → f.feedsStore s n u = false) →
        f.kind u ≠ .other → f.kind u ≠ .variable → (∀ u' ∈ u :: us, (f.kind u' = .store → u' = r ∧ st = none) ∧ (f.kind u' = .chain → f.feedsStore s n u' = false) ∧
      f.kind u' ≠ .other ∧ f.kind u' ≠ .variable) ∧
    (∀ x, st = some x → r = x) ∧ (st = none → r ∈ u :: us ∧ f.kind r = .store) := by
      intro h h1 h2 h3 h4
      obtain ⟨h5, h6, h7⟩ := ih h
      refine ⟨?_, h6, fun e => ⟨by simp [(h7 e).1], (h7 e).2⟩⟩
      intro u' hu'
      simp only [List.mem_cons] at hu'
      rcases hu' with rfl | hu'
      · exact ⟨fun h => absurd h h1, h2, h3, h4⟩
      · exact h5 u' hu'
    split at h
    · next hk =>
      split at h
      · obtain ⟨h5, h6, h7⟩ := ih h
        have := h6 u rfl
        subst this
        refine ⟨?_, by simp, fun _ => ⟨by simp, hk⟩⟩
        intro u' hu'
        simp only [List.mem_cons] at hu'
        rcases hu' with rfl | hu'
        · simp [hk]
        · obtain ⟨h8, h9⟩ := h5 u' hu'
          exact ⟨fun h => ⟨(h8 h).1, rfl⟩, h9⟩
      · cases h
    · next hk =>
      split at h
      · cases h
      · next hf => exact skip h (by simp [hk]) (fun _ => by simpa using hf) (by simp [hk]) (by simp [hk])
    · next hk => exact skip h (by simp [hk]) (by simp [hk]) (by simp [hk]) (by simp [hk])
    · next hk => exact skip h (by simp [hk]) (by simp [hk]) (by simp [hk]) (by simp [hk])
    · next hk => exact skip h (by simp [hk]) (by simp [hk]) (by simp [hk]) (by simp [hk])
    · next hk => exact skip h (by simp [hk]) (by simp [hk]) (by simp [hk]) (by simp [hk])
    · cases h

theorem single_sound {s : State I} (h : SInv f s) {v st} (hk : f.kind v = .variable) (hs : f.single s n v = some st) :
    ∃ e, Single f v st e ∧ f.stored s st = some (s.sub e) := by
  obtain ⟨h1, h2, h3⟩ := check_some hw hv hI hA _ hs
  have huse : ∀ k q, CopyOf f k q v → ∀ x ∈ f.insts, f.kind x ≠ .load → (q ∈ f.ops x ∨ ∃ b, (q, b) ∈ f.args x) →
      x ∈ f.findUses s n v := by
    intro k q hc x hx hl hq
    rw [mem_findUses hw hv hI hA h hk]
    exact ⟨k, q, hc, (mem_users hw hv hI hA h hc.direct).2 ⟨hx, not_killed hw hv hI hA h hl, hq⟩⟩
  have hchain : ∀ k1 q u r, CopyOf f k1 q v → f.kind u = .chain → f.ops u = q :: r → f.feedsStore s n u = false := by
    intro k1 q u r hc hu ho
    exact (h1 u (huse k1 q hc u (hw.inside u (by simp [hu])) (by simp [hu]) (.inl (by simp [ho])))).2.1 hu
  have hpriv : Private f v := by
    intro k p hd u hu hp
    by_cases hl : f.kind u = .load
    · exact .inl hl
    rcases direct_split hw hv hI hA hd with hc | ⟨k1, q, x, r, k2, hc, hx, ho, hb⟩
    · obtain ⟨h4, h5, h6, h7⟩ := h1 u (huse k p hc u hu hl hp)
      cases hku : f.kind u with
      | store =>
        refine .inr (.inr (.inr (.inr (.inr ⟨rfl, ?_⟩))))
        rintro q w ho rfl
        exact hA u hu hku q w ho k v hd
      | _ => simp_all
    · have := feeds_users hw hv hI hA h hb (.chain hx ho hc.direct) (hchain _ _ _ _ hc hx ho) hu hp
      rcases this with h4 | h4 | h4 | h4 <;> simp [h4]
  have honly : ∀ k p u w, Direct f k p v → u ∈ f.insts → f.kind u = .store → f.ops u = [p, w] →
      u = st ∧ (if f.ops v = [] then none else some v : Option I) = none := by
    intro k p u w hd hu hku ho
    rcases direct_split hw hv hI hA hd with hc | ⟨k1, q, x, r, k2, hc, hx, hxo, hb⟩
    · exact (h1 u (huse k p hc u hu (by simp [hku]) (.inl (by simp [ho])))).1 hku
    · have := feeds_users hw hv hI hA h hb (.chain hx hxo hc.direct) (hchain _ _ _ _ hc hx hxo) hu (.inl (by simp [ho] : p ∈ f.ops u))
      rcases this with h4 | h4 | h4 | h4 <;> rw [hku] at h4 <;> cases h4
  by_cases hov : f.ops v = []
  · obtain ⟨hmem, hst⟩ := h3 (by simp [hov])
    obtain ⟨q, e, ho⟩ := hw.store st hst
    rw [mem_findUses hw hv hI hA h hk] at hmem
    obtain ⟨k, p, hc, hu⟩ := hmem
    rw [mem_users hw hv hI hA h hc.direct] at hu
    obtain ⟨hin, -, hp⟩ := hu
    have hpq : p = q := by
      rcases hp with hp | ⟨b, hp⟩
      · simp only [ho, List.mem_cons, List.not_mem_nil, or_false] at hp
        rcases hp with hp | hp
        · exact hp
        · subst hp
          exact absurd hc.direct (hA st hin hst q p ho k v)
      · rw [hw.args st (by simp [hst])] at hp; cases hp
    subst hpq
    refine ⟨e, ⟨hk, hpriv, ?_, .inl ⟨hst, hov, hin, p, k, ho, hc⟩⟩, by simp [Func.stored, hst, ho]⟩
    intro k p u w hd hu hku huo
    exact ⟨(honly k p u w hd hu hku huo).1, hst⟩
  · rcases hw.var v hk with hov' | ⟨e, hov'⟩
    · exact absurd hov' hov
    have : st = v := h2 v (by simp [hov])
    subst this
    refine ⟨e, ⟨hk, hpriv, ?_, .inr ⟨rfl, hov'⟩⟩, by simp [Func.stored, hk, hov']⟩
    intro k p u w hd hu hku huo
    have := (honly k p u w hd hu hku huo).2
    simp [hov] at this

theorem SInv.rewrites {v st e w : I} (hs : Single f v st e) (hc : Chain (Fwd f) e w) : ∀ (us : List I) {s : State I}, SInv f s →
    (w ∉ s.kill ∨ ∃ e', Fwd f w e' ∧ Chain (Fwd f) e' w) →
    (∀ u ∈ us, f.kind u = .load → ∃ k p, f.ops u = [p] ∧ CopyOf f k p v) → SInv f (us.foldl (f.rewrite st w) s) := by
  intro us
  induction us with
  | nil => intro s h _ _; exact h
  | cons u us ih =>
    intro s h hw' hu
    simp only [List.foldl_cons]
    by_cases hc1 : f.kind u = .load ∧ f.dom st u = true
    · obtain ⟨hk, hd⟩ := hc1
      obtain ⟨k, p, ho, hcp⟩ := hu u (by simp) hk
      have hf : Fwd f u e := ⟨v, st, p, k, hs, hk, ho, hcp, hd⟩
      have hwu : w = u → ∃ e', Fwd f w e' ∧ Chain (Fwd f) e' w := by
        rintro rfl
        exact ⟨e, hf, hc⟩
      have e1 : f.rewrite st w s u = ⟨replaceAll s.sub u w, u :: s.kill⟩ := by simp [Func.rewrite, hk, hd]
      rw [e1]
      refine ih ⟨?_, ?_⟩ ?_ (fun x hx => hu x (by simp [hx]))
      · intro d
        simp only [replaceAll]
        split
        · next hd => exact ((hd ▸ h.chain d).snoc hf).trans hc
        · exact h.chain d
      · intro j hj
        simp only [List.mem_cons] at hj
        have hkj : ∃ e, Fwd f j e := by
          rcases hj with rfl | hj
          · exact ⟨e, hf⟩
          · exact (h.dead j hj).1
        refine ⟨hkj, ?_⟩
        by_cases hjw : j = w
        · subst hjw
          right
          rcases hj with hj | hj
          · exact hwu hj
          · rcases hw' with hw' | hw'
            · exact absurd hj hw'
            · exact hw'
        · rcases hj with rfl | hj
          · left
            intro d
            simp only [replaceAll]
            split
            · exact Ne.symm hjw
            · assumption
          · rcases (h.dead j hj).2 with h1 | h1
            · left
              intro d
              simp only [replaceAll]
              split
              · exact Ne.symm hjw
              · exact h1 d
            · exact .inr h1
      · by_cases hwu' : w = u
        · exact .inr (hwu hwu')
        · rcases hw' with hw' | hw'
          · exact .inl (by simp [hwu', hw'])
          · exact .inr hw'
    · have e1 : f.rewrite st w s u = s := by simp [Func.rewrite, hc1]
      rw [e1]
      exact ih h hw' (fun x hx => hu x (by simp [hx]))

theorem SInv.process {s : State I} (h : SInv f s) {v} (hk : f.kind v = .variable) : SInv f (f.process n s v) := by
  unfold Func.process
  split
  · exact h
  · next st hs =>
    obtain ⟨e, h1, h2⟩ := single_sound hw hv hI hA h hk hs
    rw [h2]
    simp only
    refine SInv.rewrites hw hv hI hA h1 (h.chain e) _ h ?_ ?_
    · by_cases hm : s.sub e ∈ s.kill
      · rcases (h.dead _ hm).2 with h3 | h3
        · exact absurd rfl (h3 e)
        · exact .inr h3
      · exact .inl hm
    · intro u hu hku
      rw [mem_findUses hw hv hI hA h hk] at hu
      obtain ⟨k, q, hc, hu⟩ := hu
      rw [mem_users hw hv hI hA h hc.direct] at hu
      obtain ⟨p, ho⟩ := hw.load u hku
      rcases hu.2.2 with h3 | ⟨b, h3⟩
      · rw [ho] at h3
        simp at h3
        subst h3
        exact ⟨k, q, ho, hc⟩
      · rw [hw.args u (by simp [hku])] at h3; cases h3

theorem sinv_fold : ∀ (l : List I) {s : State I}, SInv f s → (∀ v ∈ l, f.kind v = .variable) → SInv f (l.foldl (f.process n) s) := by
  intro l
  induction l with
  | nil => intro s h _; exact h
  | cons v l ih =>
    intro s h hl
    exact ih (h.process hw hv hI hA (hl v (by simp))) (fun x hx => hl x (by simp [hx]))

omit hw hv hI hA in
theorem mem_variables {v} (h : v ∈ f.variables) : f.kind v = .variable ∧ v ∈ f.body f.entry := by
  refine ⟨?_, (List.takeWhile_sublist _).subset h⟩
  have := List.all_takeWhile (l := f.body f.entry) (p := fun i => decide (f.kind i = .variable))
  rw [List.all_eq_true] at this
  simpa using this v h

theorem sinv_run : SInv f (f.run n) := sinv_fold hw hv hI hA _ sinv_init fun v h => (mem_variables h).1

end
end Verif.SingleStore
