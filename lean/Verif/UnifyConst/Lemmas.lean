import Verif.UnifyConst.Spec
set_option linter.unusedSimpArgs false
set_option linter.unusedVariables false
namespace Verif.UnifyConst
open Spec

/-- What is stored for keys; 0: nothing. -/
def get : List Nat → Trie → Nat
  | [], .node rid _ => rid
  | k :: ks, .node _ ch => get ks ((ch.find k).getD (.node 0 .nil))

theorem Kids.find_put (c : Kids) (k : Nat) (t : Trie) (x : Nat) :
    (c.put k t).find x = if x = k then some t else c.find x := by
  match c with
  | .nil =>
    simp only [Kids.put, Kids.find]
    by_cases h : x = k
    · simp [h]
    · simp [h, Ne.symm h]
  | .cons j s r =>
    have ih := Kids.find_put r k t x
    simp only [Kids.put]
    by_cases hj : j = k
    · subst hj
      simp only [if_true, Kids.find]
      by_cases h : x = j
      · simp [h]
      · simp [h, Ne.symm h]
    · simp only [hj, if_false, Kids.find]
      by_cases h : j = x
      · subst h; simp [hj]
      · simp only [h, if_false]; exact ih

theorem get_empty (ks : List Nat) : get ks (.node 0 .nil) = 0 := by
  induction ks with
  | nil => rfl
  | cons k ks ih => simpa [get, Kids.find] using ih

theorem walk_fst (ks : List Nat) (id : Nat) (t : Trie) :
    (walk ks id t).1 = if get ks t = 0 then id else get ks t := by
  induction ks generalizing t with
  | nil =>
    cases t with
    | node rid ch => simp only [walk, get]; split <;> simp_all
  | cons k ks ih =>
    cases t with
    | node rid ch =>
      simp only [walk, get, ih]
      split <;> simp_all

theorem walk_get (ks : List Nat) (id : Nat) (t : Trie) (qs : List Nat) :
    get qs (walk ks id t).2 = if qs = ks then (walk ks id t).1 else get qs t := by
  induction ks generalizing t qs with
  | nil =>
    cases t with
    | node rid ch =>
      cases qs with
      | nil => simp only [walk]; split <;> simp [get]
      | cons q qs => simp only [walk]; split <;> simp [get]
  | cons k ks ih =>
    cases t with
    | node rid ch =>
      cases qs with
      | nil => simp [walk, get]
      | cons q qs =>
        simp only [walk, get, Kids.find_put]
        by_cases hq : q = k
        · subst hq
          simp only [if_true, Option.getD_some, ih, List.cons.injEq, true_and]
        · simp [hq]

/-- Equal words and equal kinds: equal operands. -/
theorem opds_ext {a b : List Opd} (hw : a.map word = b.map word) (hk : a.map isRef = b.map isRef) :
    a = b := by
  induction a generalizing b with
  | nil => cases b with
    | nil => rfl
    | cons y b => simp at hw
  | cons x a ih =>
    cases b with
    | nil => simp at hw
    | cons y b =>
      simp only [List.map_cons, List.cons.injEq] at hw hk
      rw [ih hw.2 hk.2]
      cases x <;> cases y <;> simp_all [word, isRef]

theorem kinds_subst (s : Nat → Nat) (a : List Opd) : (a.map (substOpd s)).map isRef = a.map isRef := by
  rw [List.map_map]
  apply List.map_congr_left
  intro x _
  cases x <;> rfl

/-- Words that agree after replacements: the literals agree. -/
theorem lits_of_words (s s' : Nat → Nat) (a b : List Opd)
    (h : (a.map (substOpd s)).map word = (b.map (substOpd s')).map word) : litsAgree a b := by
  induction a generalizing b with
  | nil => simp [litsAgree]
  | cons x a ih =>
    cases b with
    | nil => simp at h
    | cons y b =>
      simp only [List.map_cons, List.cons.injEq] at h
      cases x <;> cases y <;> simp only [litsAgree] <;> first
        | exact ih b h.2
        | exact ⟨h.1, ih b h.2⟩

section
variable {V : Type} (ev : Nat → List (V ⊕ Nat) → V) (own : Nat → Nat → List (V ⊕ Nat) → V)

theorem args_subst {s : Nat → Nat} {eo en : Nat → V} (h : ∀ i, eo i = en (s i)) (a : List Opd) :
    (a.map (substOpd s)).map (arg en) = a.map (arg eo) := by
  rw [List.map_map]
  apply List.map_congr_left
  intro x _
  cases x with
  | ref i => simp [substOpd, arg, h i]
  | lit n => rfl

theorem value_subst {s : Nat → Nat} {eo en : Nat → V} (h : ∀ i, eo i = en (s i)) (x : Inst) :
    value ev own en (subst s x) = value ev own eo x := by
  simp only [value, subst, args_subst h]

theorem args_frame {en : Nat → V} {n : Nat} {v : V} (a : List Opd) (h : ∀ i, .ref i ∈ a → i ≠ n) :
    a.map (arg fun i => if i = n then v else en i) = a.map (arg en) := by
  apply List.map_congr_left
  intro x hx
  cases x with
  | ref i => simp [arg, h i hx]
  | lit n => rfl

/-- The state of the loop between `l₁` and `l₂`: `eo` and `en` are the values so far. -/
structure Inv (l₁ l₂ : List Inst) (s : Nat → Nat) (t : Trie) (eo en : Nat → V) : Prop where
  rel : ∀ i, eo i = en (s i)
  dom : ∀ i, s i ≠ i → (∃ x ∈ l₁, x.id = i) ∧ ∃ y ∈ l₁, y.id = s i
  stored : ∀ ks r, get ks t = r → r ≠ 0 → ∃ y ∈ l₁, ∃ s', y.id = r ∧ s r = r ∧ unifiable y.op ∧
    keys (subst s' y) = ks ∧ (∀ i, .ref i ∈ (subst s' y).opds → ∀ z ∈ l₂, z.id ≠ i) ∧
    en r = ev y.op ((subst s' y).opds.map (arg en))
end

theorem subst_refs {s : Nat → Nat} {a : List Opd} {j : Nat} (h : .ref j ∈ a.map (substOpd s)) :
    ∃ i, .ref i ∈ a ∧ s i = j := by
  obtain ⟨o, ho, e⟩ := List.mem_map.1 h
  cases o with
  | ref i => simp [substOpd] at e; exact ⟨i, ho, e⟩
  | lit n => simp [substOpd] at e


section
variable {V : Type} {ev : Nat → List (V ⊕ Nat) → V} {own : Nat → Nat → List (V ⊕ Nat) → V}

theorem ids_before {l₁ l₂ : List Inst} {x : Inst} (ok : Ok (l₁ ++ x :: l₂)) :
    (∀ y ∈ l₁, y.id ≠ x.id) ∧ (∀ y ∈ l₁, ∀ z ∈ x :: l₂, y.id ≠ z.id) := by
  have h := List.pairwise_append.1 ok.once
  exact ⟨fun y hy => h.2.2 y hy x (by simp), h.2.2⟩

/-- Operands of constants, replaced: none is defined later. -/
theorem refs_before {l₁ l₂ : List Inst} {x : Inst} (ok : Ok (l₁ ++ x :: l₂)) {s : Nat → Nat}
    (dom : ∀ i, s i ≠ i → (∃ x ∈ l₁, x.id = i) ∧ ∃ y ∈ l₁, y.id = s i) (hu : unifiable x.op)
    (j : Nat) (hj : .ref j ∈ (subst s x).opds) (z : Inst) (hz : z ∈ x :: l₂) : z.id ≠ j := by
  obtain ⟨i, hi, rfl⟩ := subst_refs hj
  by_cases h : s i = i
  · rw [h]; exact ok.before l₁ x l₂ rfl hu i hi z hz
  · obtain ⟨-, y, hy, e⟩ := dom i h
    rw [← e]
    exact ((ids_before ok).2 y hy z hz).symm

/-- A kept instruction, the trie as before or with it. -/
theorem Inv.keep {l₁ l₂ : List Inst} {x : Inst} (ok : Ok (l₁ ++ x :: l₂)) {s : Nat → Nat} {t t' : Trie}
    {eo en : Nat → V} (h : Inv ev l₁ (x :: l₂) s t eo en)
    (ht : ∀ ks r, get ks t' = r → r ≠ 0 → get ks t = r ∨
      (unifiable x.op ∧ r = x.id ∧ ks = keys (subst s x))) :
    Inv ev (l₁ ++ [x]) l₂ s t' (fun i => if i = x.id then value ev own eo x else eo i)
      (fun i => if i = x.id then value ev own en (subst s x) else en i) := by
  have hne := (ids_before ok).1
  have hs : s x.id = x.id := Classical.byContradiction fun q => by
    obtain ⟨⟨y, hy, e⟩, -⟩ := h.dom _ q
    exact hne y hy e
  refine ⟨?_, ?_, ?_⟩
  · intro i
    by_cases hi : i = x.id
    · subst hi
      simp [hs, value_subst ev own h.rel]
    · have : s i ≠ x.id := fun q => by
        have q' : s i ≠ i := fun e => hi (by rw [← e, q])
        obtain ⟨-, y, hy, e⟩ := h.dom i q'
        exact hne y hy (by rw [e, q])
      simp only [if_neg hi, if_neg this, h.rel i]
  · intro i hi
    obtain ⟨⟨a, ha, ea⟩, b, hb, eb⟩ := h.dom i hi
    exact ⟨⟨a, by simp [ha], ea⟩, b, by simp [hb], eb⟩
  · intro ks r hr h0
    rcases ht ks r hr h0 with hr | ⟨hu, rfl, rfl⟩
    · obtain ⟨y, hy, s', k1, k2, k3, k4, k5, k6⟩ := h.stored ks r hr h0
      refine ⟨y, by simp [hy], s', k1, k2, k3, k4, fun i hi z hz => k5 i hi z (by simp [hz]), ?_⟩
      have : r ≠ x.id := fun q => hne y hy (by rw [k1, q])
      simp only [if_neg this]
      rw [args_frame _ fun i hi => (k5 i hi x (by simp)).symm]
      exact k6
    · refine ⟨x, by simp, s, rfl, hs, hu, rfl, ?_, ?_⟩
      · exact fun i hi z hz => refs_before ok h.dom hu i hi z (by simp [hz])
      · simp only [if_true]
        rw [args_frame _ fun i hi => (refs_before ok h.dom hu i hi x (by simp)).symm]
        simp only [value, subst, hu, if_true]

theorem same_opds {l : List Inst} (ok : Ok l) {x y : Inst} (hx : x ∈ l) (hy : y ∈ l) {s s' : Nat → Nat}
    (hu : unifiable y.op) (hk : keys (subst s' y) = keys (subst s x)) :
    y.op = x.op ∧ (subst s' y).opds = (subst s x).opds := by
  simp only [keys, subst, List.cons.injEq] at hk
  refine ⟨hk.1, ?_⟩
  have hlen : y.opds.length = x.opds.length := by simpa using congrArg List.length hk.2
  have hl := lits_of_words s' s _ _ hk.2
  have := ok.grammar y hy x hx hu hk.1 hlen hl
  exact opds_ext hk.2 (by simp only [subst, kinds_subst]; exact this)

/-- A removed instruction. -/
theorem Inv.kill {l₁ l₂ : List Inst} {x : Inst} (ok : Ok (l₁ ++ x :: l₂)) {s : Nat → Nat} {t t' : Trie}
    {eo en : Nat → V} (h : Inv ev l₁ (x :: l₂) s t eo en) (hu : unifiable x.op) {r : Nat}
    (hr : get (keys (subst s x)) t = r) (h0 : r ≠ 0) (ht : ∀ ks, get ks t' = get ks t) :
    Inv ev (l₁ ++ [x]) l₂ (fun i => if i = x.id then r else s i) t'
      (fun i => if i = x.id then value ev own eo x else eo i) en := by
  have hne := (ids_before ok).1
  obtain ⟨y, hy, s', k1, k2, k3, k4, k5, k6⟩ := h.stored _ r hr h0
  obtain ⟨e1, e2⟩ := same_opds ok (by simp) (by simp [hy]) k3 k4
  refine ⟨?_, ?_, ?_⟩
  · intro i
    by_cases hi : i = x.id
    · simp only [if_pos hi]
      rw [k6, e2, e1, ← value_subst ev own h.rel x]
      simp only [value, subst, hu, if_true]
    · simp only [if_neg hi, h.rel i]
  · intro i hi
    by_cases hx : i = x.id
    · exact ⟨⟨x, by simp, hx.symm⟩, y, by simp [hy], by simp [hx, k1]⟩
    · simp only [if_neg hx] at hi ⊢
      obtain ⟨⟨a, ha, ea⟩, b, hb, eb⟩ := h.dom i hi
      exact ⟨⟨a, by simp [ha], ea⟩, b, by simp [hb], eb⟩
  · intro ks q hq q0
    rw [ht] at hq
    obtain ⟨z, hz, s2, m1, m2, m3, m4, m5, m6⟩ := h.stored ks q hq q0
    have : q ≠ x.id := fun e => hne z hz (by rw [m1, e])
    exact ⟨z, by simp [hz], s2, m1, by simp [this, m2], m3, m4,
      fun i hi w hw => m5 i hi w (by simp [hw]), m6⟩

/-- The cases of the loop. -/
theorem go_cases (x : Inst) (l : List Inst) (s : Nat → Nat) (t : Trie) (m : Bool) :
    (∃ t', go (x :: l) s t m = { go l s t' m with insts := subst s x :: (go l s t' m).insts } ∧
      ((x.decorated = false ∧ unifiable x.op) →
        (∀ ks, get ks t' = if ks = keys (subst s x) then x.id else get ks t) ∧
        (get (keys (subst s x)) t = 0 ∨ get (keys (subst s x)) t = x.id)) ∧
      (¬ (x.decorated = false ∧ unifiable x.op) → t' = t)) ∨
    (∃ t' r, go (x :: l) s t m = go l (fun i => if i = x.id then r else s i) t' true ∧
      x.decorated = false ∧ unifiable x.op ∧ r ≠ x.id ∧ r ≠ 0 ∧ get (keys (subst s x)) t = r ∧
      ∀ ks, get ks t' = get ks t) := by
  by_cases hd : x.decorated
  · exact .inl ⟨t, by simp [go, hd], by simp [hd], fun _ => rfl⟩
  · by_cases hu : unifiable x.op
    · by_cases hr : (walk (keys (subst s x)) x.id t).1 = x.id
      · refine .inl ⟨(walk (keys (subst s x)) x.id t).2, by simp [go, hd, hu, hr], fun _ => ⟨?_, ?_⟩,
          fun q => absurd ⟨by simpa using hd, hu⟩ q⟩
        · intro ks; rw [walk_get, hr]
        · rw [walk_fst] at hr
          by_cases h0 : get (keys (subst s x)) t = 0
          · exact .inl h0
          · rw [if_neg h0] at hr; exact .inr hr
      · refine .inr ⟨(walk (keys (subst s x)) x.id t).2, (walk (keys (subst s x)) x.id t).1,
          by simp [go, hd, hu, hr], by simpa using hd, hu, hr, ?_⟩
        have hf := walk_fst (keys (subst s x)) x.id t
        by_cases h0 : get (keys (subst s x)) t = 0
        · rw [if_pos h0] at hf; exact absurd hf hr
        · rw [if_neg h0] at hf
          refine ⟨by rw [hf]; exact h0, hf.symm, fun ks => ?_⟩
          rw [walk_get]
          split
          · rename_i e; rw [e, hf]
          · rfl
    · exact .inl ⟨t, by simp [go, hd, hu], by simp [hu], fun _ => rfl⟩

theorem go_eval (l₂ l₁ : List Inst) (ok : Ok (l₁ ++ l₂)) (s : Nat → Nat) (t : Trie) (m : Bool)
    (eo en : Nat → V) (h : Inv ev l₁ l₂ s t eo en) (i : Nat) :
    eval ev own l₂ eo i = eval ev own (go l₂ s t m).insts en ((go l₂ s t m).repl i) := by
  induction l₂ generalizing l₁ s t m eo en with
  | nil => simp only [eval, go]; exact h.rel i
  | cons x l₂ ih =>
    have ok' : Ok ((l₁ ++ [x]) ++ l₂) := by simpa using ok
    rcases go_cases x l₂ s t m with ⟨t', e, h1, h2⟩ | ⟨t', r, e, hd, hu, hrx, hr0, hr, ht⟩
    · rw [e]
      simp only [eval]
      refine ih (l₁ ++ [x]) ok' s t' m _ _ (h.keep ok ?_)
      intro ks r hr h0
      by_cases hc : x.decorated = false ∧ unifiable x.op
      · rw [(h1 hc).1] at hr
        split at hr
        · rename_i e; exact .inr ⟨hc.2, hr.symm, e⟩
        · exact .inl hr
      · rw [h2 hc] at hr; exact .inl hr
    · rw [e]
      simp only [eval]
      exact ih (l₁ ++ [x]) ok' _ t' true _ _ (h.kill ok hu hr hr0 ht)
end

end Verif.UnifyConst
