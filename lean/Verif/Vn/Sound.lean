import Verif.Vn.Build

/-
# Equal numbers, equal values
-/

set_option linter.unusedSimpArgs false
set_option linter.unusedVariables false
set_option linter.unusedSectionVars false

namespace Verif.Vn

/-! ## Traces -/

/-- One step of a walk. -/
inductive Next (P : Prog) : Pt → Pt → Prop
  | step {b k} : k < (P.insts b).length → Next P (b, k) (b, k + 1)
  | edge {b c} : b ∈ P.preds c → Next P (b, (P.insts b).length) (c, 0)

theorem trace_cons {P : Prog} {q q' : Pt} {t : List Pt} :
    Trace P (q :: q' :: t) ↔ Trace P (q' :: t) ∧ Next P q' q := by
  constructor
  · intro h
    cases h with
    | step h hk => exact ⟨h, .step hk⟩
    | edge h hk hp => subst hk; exact ⟨h, .edge hp⟩
  · rintro ⟨h, hn⟩
    cases hn with
    | step hk => exact .step h hk
    | edge hp => exact .edge h rfl hp

theorem trace_one {P : Prog} {q : Pt} : Trace P [q] ↔ q = (P.entry, 0) := by
  constructor
  · intro h; cases h; rfl
  · rintro rfl; exact .start

theorem trace_suffix {P : Prog} : ∀ (u : List Pt) {s : List Pt}, Trace P (u ++ s) → s ≠ [] →
    Trace P s
  | [], _, h, _ => h
  | [a], q :: s, h, _ => (trace_cons.1 h).1
  | a :: b :: u, s, h, hs => trace_suffix (b :: u) ((trace_cons (t := u ++ s)).1 h).1 hs
  | [a], [], _, hs => absurd rfl hs

theorem trace_order {P : Prog} (hV : Valid P) {t : List Pt} (h : Trace P t) :
    ∀ q ∈ t, q.1 ∈ P.order := by
  induction h with
  | start => simp [hV.entry_mem]
  | @step b k t h hk ih =>
    intro q hq
    rcases List.mem_cons.1 hq with rfl | hq
    · exact ih (b, k) (List.mem_cons_self ..)
    · exact ih q hq
  | edge h hk hp ih =>
    intro q hq
    rcases List.mem_cons.1 hq with rfl | hq
    · exact hV.closed _ (ih (_, _) (List.mem_cons_self ..)) _ hp
    · exact ih q hq

/-- No trace of a kind that always has a shorter one. -/
theorem no_trace {P : Prog} {T : List Pt → Prop}
    (h : ∀ t, Trace P t → T t → ∃ t', Trace P t' ∧ T t' ∧ t'.length < t.length) :
    ∀ t, Trace P t → ¬ T t := by
  intro t
  induction hn : t.length using Nat.strongRecOn generalizing t with
  | ind n ih =>
    intro ht hT
    obtain ⟨t', h1, h2, h3⟩ := h t ht hT
    exact ih _ (hn ▸ h3) t' rfl h1 h2

theorem head_order {P : Prog} (hV : Valid P) {q : Pt} {t : List Pt} (h : Trace P (q :: t)) :
    q.1 ∈ P.order := trace_order hV h q (by simp)

/-! ## Definitions -/

theorem def_listed {P : Prog} {x : Id} {i : Inst} {q : Pt} (h : DefBy P x i q) (hq : q.1 ∈ P.order) :
    i ∈ listing P ∧ i.result = x := by
  obtain ⟨h0, h1, k, h2, _⟩ := h
  refine ⟨?_, h1⟩
  unfold listing
  rw [List.mem_filter]
  refine ⟨List.mem_flatMap.2 ⟨_, hq, List.mem_of_getElem? h2⟩, by simp [h1, h0]⟩

theorem listed_def {P : Prog} {i : Inst} (h : i ∈ listing P) : ∃ q : Pt, q.1 ∈ P.order ∧ DefBy P i.result i q := by
  unfold listing at h
  rw [List.mem_filter, List.mem_flatMap] at h
  obtain ⟨⟨b, hb, hi⟩, h0⟩ := h
  obtain ⟨k, hk⟩ := List.getElem?_of_mem hi
  exact ⟨(b, if i.op = "OpPhi" then 0 else k + 1), hb, by simpa using h0, rfl, k, hk, rfl⟩

theorem def_unique {P : Prog} (hV : Valid P) {x : Id} {i i' : Inst} {q q' : Pt} (h : DefBy P x i q)
    (h' : DefBy P x i' q') (hq : q.1 ∈ P.order) (hq' : q'.1 ∈ P.order) : q = q' ∧ i = i' := by
  obtain ⟨h0, h1, k, h2, h3⟩ := h
  obtain ⟨_, h1', k', h2', h3'⟩ := h'
  have := hV.unique _ _ k k' i i' hq hq' h2 h2' (by rw [h1, h1']) (by rw [h1]; exact h0)
  obtain ⟨e1, e2⟩ := this
  rw [e1, e2, h2'] at h2
  have : i = i' := by simpa using h2.symm
  subst this
  exact ⟨Prod.ext e1 (by rw [h3, h3', e2]), rfl⟩

theorem list_split_unique {P : Prog} (hV : Valid P) {i : Inst} {u w u' w' : List Inst}
    (h : listing P = u ++ i :: w) (h' : listing P = u' ++ i :: w') : u = u' := by
  have hn := listing_nodup hV
  have aux : ∀ (l u u' w w' : List Inst), (l.map Inst.result).Nodup → l = u ++ i :: w → l = u' ++ i :: w' → u = u' := by
    intro l
    induction l with
    | nil => intro u u' w w' _ h; simp at h
    | cons a l ih =>
      intro u u' w w' hn h h'
      simp at hn
      cases u with
      | nil =>
        cases u' with
        | nil => rfl
        | cons c u' =>
          simp at h h'
          exact absurd (by rw [← h.1]) (hn.1 i (by rw [h'.2]; simp))
      | cons c u =>
        cases u' with
        | nil =>
          simp at h h'
          exact absurd (by rw [← h'.1]) (hn.1 i (by rw [h.2]; simp))
        | cons d u' =>
          simp at h h'
          rw [ih u u' w w' hn.2 h.2 h'.2, ← h.1, ← h'.1]
  exact aux _ _ _ _ _ hn h h'

theorem Av.prev {P : Prog} {q q' : Pt} {x : Id} (h : Av P q x) (hn : Next P q' q) (hd : ¬ DefAt P x q) :
    Av P q' x := by
  intro t ht
  obtain ⟨d, hm, hd'⟩ := h (q' :: t) (trace_cons.2 ⟨ht, hn⟩)
  rcases List.mem_cons.1 hm with rfl | hm
  · exact absurd hd' hd
  · exact ⟨d, hm, hd'⟩

theorem def_has_pred {P : Prog} (hV : Valid P) {x : Id} {q : Pt} {t : List Pt} (ht : Trace P (q :: t))
    (hd : DefAt P x q) : ∃ q' s, t = q' :: s ∧ Trace P (q' :: s) ∧ Next P q' q := by
  cases t with
  | nil =>
    have := trace_one.1 ht
    subst this
    obtain ⟨i, _, _, k, hk, he⟩ := hd
    split at he
    · rename_i ho
      exact absurd rfl (hV.phi_first _ _ _ hV.entry_mem hk ho).1
    · simp at he
  | cons q' s => exact ⟨q', s, rfl, trace_cons.1 ht⟩

theorem next_zero {P : Prog} {b : Block} {q' : Pt} (h : Next P q' (b, 0)) :
    q'.1 ∈ P.preds b ∧ q'.2 = (P.insts q'.1).length := by
  cases h with
  | edge h => exact ⟨h, rfl⟩

theorem next_succ {P : Prog} {b : Block} {k : Nat} {q' : Pt} (h : Next P q' (b, k + 1)) : q' = (b, k) := by
  cases h with
  | step h => rfl

/-! ## Values along a trace -/

section
variable {Val : Type} {P : Prog} {S : Sem Val} {rep : List (Id × Id)} {G : Id → Val}

theorem phiOf_spec {b : Block} {y : Id} {i : Inst} (h : phiOf P b y = some i) :
    i.op = "OpPhi" ∧ i.result = y ∧ ∃ k : Nat, (P.insts b)[k]? = some i := by
  have h1 := List.find?_some h
  simp only [Bool.and_eq_true, beq_iff_eq] at h1
  exact ⟨h1.1, h1.2, List.getElem?_of_mem (List.mem_of_find?_eq_some h)⟩

theorem run_keep (hV : Valid P) {q q' : Pt} {t : List Pt} {x : Id} (hq : q.1 ∈ P.order)
    (hd : ¬ DefAt P x q) : run P S rep G (q :: q' :: t) x = run P S rep G (q' :: t) x := by
  obtain ⟨b, k⟩ := q
  cases k with
  | zero =>
    rw [run, enter]
    split
    · rfl
    · rename_i i hp
      obtain ⟨h1, h2, k, hk⟩ := phiOf_spec hp
      exact absurd ⟨i, h2 ▸ (hV.phi_ops _ _ _ hq hk h1).1, h2, k, hk, by simp [h1]⟩ hd
  | succ k =>
    rw [run]
    cases hi : (P.insts b)[k]? with
    | none => rfl
    | some i =>
      simp only
      by_cases hc : i.op = "OpPhi" ∨ i.result = 0 ∨ killed rep i = true
      · rw [if_pos hc]
      · rw [if_neg hc]
        simp only [not_or] at hc
        split
        · rename_i he
          exact absurd ⟨i, by rw [he]; exact hc.2.1, he.symm, k, hi, by simp [hc.1]⟩ hd
        · rfl

theorem run_first (hV : Valid P) {x : Id} : run P S rep G [(P.entry, 0)] x = G x := by
  rw [run]

theorem run_none (hV : Valid P) {x : Id} (hx : ∀ q : Pt, q.1 ∈ P.order → ¬ DefAt P x q) :
    ∀ {t : List Pt} {q : Pt}, Trace P (q :: t) → run P S rep G (q :: t) x = G x
  | [], q, h => by rw [trace_one.1 h]; exact run_first hV
  | q' :: t, q, h => by
    rw [run_keep hV (head_order hV h) (hx q (head_order hV h))]
    exact run_none hV hx (trace_cons.1 h).1

theorem run_inst {b : Block} {k : Nat} {t : List Pt} {i : Inst} (hi : (P.insts b)[k]? = some i)
    (ho : i.op ≠ "OpPhi") (h0 : i.result ≠ 0) (hk : killed rep i = false) :
    run P S rep G ((b, k + 1) :: t) i.result =
      S.val i ((b, k + 1) :: t) (i.ops.map (Opnd.eval rep (run P S rep G t))) := by
  rw [run]
  simp [hi, ho, h0, hk]

theorem phiOf_def (hV : Valid P) {b : Block} {x : Id} {i : Inst} {k : Nat} (hb : b ∈ P.order)
    (hi : (P.insts b)[k]? = some i) (ho : i.op = "OpPhi") (hx : i.result = x) :
    phiOf P b x = some i := by
  cases hp : phiOf P b x with
  | none =>
    unfold phiOf at hp
    rw [List.find?_eq_none] at hp
    have := hp i (List.mem_of_getElem? hi)
    simp [ho, hx] at this
  | some j =>
    obtain ⟨h1, h2, k', hk'⟩ := phiOf_spec hp
    have := hV.unique b b k k' i j hb hb hi hk' (by rw [hx, h2]) (hV.phi_ops _ _ _ hb hi ho).1
    rw [this.2, hk'] at hi
    simpa using hi

theorem run_phi (hV : Valid P) {b p : Block} {k' : Nat} {t : List Pt} {x : Id} {i : Inst} {k : Nat}
    (hb : b ∈ P.order) (hi : (P.insts b)[k]? = some i) (ho : i.op = "OpPhi") (hx : i.result = x)
    (hk : killed rep i = false) {a : Id × Block}
    (ha : (phiArgs i.ops).find? (fun a => a.2 == p) = some a) :
    run P S rep G ((b, 0) :: (p, k') :: t) x = run P S rep G ((p, k') :: t) (use rep a.1) := by
  rw [run, enter, phiOf_def hV hb hi ho hx]
  simp only [hk, ha]
  simp

end

/-! ## The numbers -/

section
variable {P : Prog} {B : Base} (hV : Valid P) (hI : Inv P (listing P) (build P) B)
include hV hI

theorem num_listed {x : Id} : (build P).num x ≠ 0 ↔ ∃ i ∈ listing P, i.result = x := by
  rw [hI.pos]; simp

theorem num_def {x : Id} {q : Pt} (hq : q.1 ∈ P.order) (h : DefAt P x q) : (build P).num x ≠ 0 := by
  obtain ⟨i, h⟩ := h
  exact (num_listed hV hI).2 ⟨i, def_listed h hq⟩

theorem def_num {x : Id} (h : (build P).num x ≠ 0) : ∃ q i, q.1 ∈ P.order ∧ DefBy P x i q := by
  obtain ⟨i, hi, rfl⟩ := (num_listed hV hI).1 h
  obtain ⟨q, h1, h2⟩ := listed_def hi
  exact ⟨q, i, h1, h2⟩

theorem not_def_of_num {x : Id} (h : (build P).num x = 0) (q : Pt) (hq : q.1 ∈ P.order) : ¬ DefAt P x q :=
  fun hd => num_def hV hI hq hd h

/-- Numbered ids that are available after the fashion of `Valid.doms`. -/
theorem av_of_onTrace {x : Id} {q : Pt} (h0 : (build P).num x ≠ 0)
    (h : ∀ t, Trace P (q :: t) → OnTrace P x (q :: t)) : Av P q x := by
  intro t ht
  rcases h t ht with h | h
  · exact h
  · obtain ⟨d, i, hd, hdef⟩ := def_num hV hI h0
    exact absurd ⟨i, hdef⟩ (h d hd)

/-- What defines `y` passes on a value of the same number. -/
def Fwd (P : Prog) (y : Id) (q : Pt) : Prop :=
  ∀ q', Next P q' q → ∃ z, (build P).num z = (build P).num y ∧ Av P q' z ∧
    ∀ (Val : Type) (S : Sem Val) (G : Id → Val) t, S.Ok P → Trace P (q :: q' :: t) →
      run P S [] G (q :: q' :: t) y = run P S [] G (q' :: t) z

theorem use_nil (x : Id) : use [] x = x := rfl

theorem killed_nil (i : Inst) : killed [] i = false := rfl

theorem find_label {p : Block} {l : List (Id × Block)} (h : p ∈ l.map Prod.snd) :
    ∃ a, l.find? (fun a => a.2 == p) = some a ∧ a ∈ l ∧ a.2 = p := by
  cases hf : l.find? (fun a => a.2 == p) with
  | none =>
    rw [List.find?_eq_none] at hf
    simp only [List.mem_map] at h
    obtain ⟨a, ha, e⟩ := h
    have := hf a ha
    simp [e] at this
  | some a =>
    have h1 := List.find?_some hf
    exact ⟨a, rfl, List.mem_of_find?_eq_some hf, by simpa using h1⟩

theorem elem_cases {y : Id} {i : Inst} {q : Pt} {t : List Pt} (ht : Trace P (q :: t)) (hd : DefBy P y i q) :
    (B.key ((build P).num y) = none ∧ B.crt ((build P).num y) = y) ∨ Fwd P y q ∨
    ∃ u w ks, listing P = u ++ i :: w ∧ Keyed P (build P).num B (u.map Inst.result) i ks := by
  have hq := head_order hV ht
  have hl := def_listed hd hq
  obtain ⟨u, w, e⟩ := List.append_of_mem hl.1
  have hy : (build P).num y ≠ 0 := num_def hV hI hq ⟨i, hd⟩
  have hR := hI.reasons u i w e
  rw [← hl.2]
  cases hR with
  | own h1 h2 => exact .inl ⟨h1, h2⟩
  | copy x rest h1 h2 h3 =>
    right; left
    intro q' hn
    have hd' := hd
    obtain ⟨hd0, hd1, k, hk, he⟩ := hd'
    rw [if_neg (by rw [h1]; decide)] at he
    have hqe : q = (q.1, k + 1) := Prod.ext rfl he
    rw [hqe] at hn
    have := next_succ hn
    subst this
    have hav : Av P (q.1, k) x := by
      refine av_of_onTrace hV hI (by rw [h3, hl.2]; exact hy) ?_
      intro t ht
      exact hV.doms _ _ _ i x ht hk (by rw [h1]; decide) (by simp [h2, ids])
    refine ⟨x, h3, hav, ?_⟩
    intro Val S G t hS ht
    rw [hqe, run_inst hk (by rw [h1]; decide) (by rw [hl.2]; exact hd0) rfl]
    rw [h2]
    simp only [List.map_cons, Opnd.eval]
    rw [hS.copy i _ _ _ h1]; rfl
  | phi h1 h2 =>
    right; left
    intro q' hn
    have hd' := hd
    obtain ⟨hd0, hd1, k, hk, he⟩ := hd'
    rw [if_pos h1] at he
    have hqe : q = (q.1, 0) := Prod.ext rfl he
    rw [hqe] at hn ht
    obtain ⟨hp, hlen⟩ := next_zero hn
    have hpl := (hV.phi_preds _ k t i ht hk h1 q'.1).1 hp
    obtain ⟨a, ha, hm, hap⟩ := find_label hV hI hpl
    have hav : Av P q' a.1 := by
      refine av_of_onTrace hV hI (by rw [h2 a hm, hl.2]; exact hy) ?_
      intro t ht
      have hq' : q' = (q'.1, (P.insts q'.1).length) := Prod.ext rfl hlen
      rw [hq'] at ht ⊢
      exact hV.phi_doms _ _ k t i a ht hp hk h1 hm hap
    refine ⟨a.1, h2 a hm, hav, ?_⟩
    intro Val S G t hS ht
    rw [hqe]
    exact run_phi hV hq hk h1 rfl rfl ha
  | keyed ks h => exact .inr (.inr ⟨u, w, ks, e, h⟩)

/-- Every walk to a member of a class leads over one whose instruction is not a copy. -/
theorem root {n : Nat} : ∀ (t : List Pt) (q : Pt) (y : Id), Trace P (q :: t) → DefAt P y q →
    (build P).num y = n → ∃ u d s r i, q :: t = u ++ d :: s ∧ DefBy P r i d ∧ (build P).num r = n ∧
      ((B.key n = none ∧ B.crt n = r) ∨
        ∃ u w ks, listing P = u ++ i :: w ∧ Keyed P (build P).num B (u.map Inst.result) i ks) := by
  intro t
  induction hl : t.length using Nat.strongRecOn generalizing t with
  | ind l ih =>
    intro q y ht ⟨i, hd⟩ hn
    rcases elem_cases hV hI ht hd with h | h | h
    · rw [hn] at h
      exact ⟨[], q, t, y, i, rfl, hd, hn, .inl h⟩
    · obtain ⟨q', s, rfl, ht', hnx⟩ := def_has_pred hV ht ⟨i, hd⟩
      obtain ⟨z, hz, hav, _⟩ := h q' hnx
      obtain ⟨d, hm, hdz⟩ := hav s ht'
      obtain ⟨u1, s1, e1⟩ := List.append_of_mem hm
      rw [e1] at ht'
      have htd := trace_suffix u1 ht' (by simp)
      have hlen : s1.length < l := by
        have := congrArg List.length e1
        simp at this hl; omega
      obtain ⟨u2, d2, s2, r, i2, e2, h3, h4, h5⟩ := ih _ hlen s1 rfl d z htd hdz (by rw [hz, hn])
      exact ⟨q :: u1 ++ u2, d2, s2, r, i2, by rw [e1, e2]; simp, h3, h4, h5⟩
    · exact ⟨[], q, t, y, i, rfl, hd, hn, .inr h⟩

/-- Every walk to a predecessor of `q` leads over a member of class `n`. -/
def Q (P : Prog) (q : Pt) (n : Nat) : Prop :=
  ∀ q', Next P q' q → ∀ t, Trace P (q' :: t) → ∃ d ∈ q' :: t, ∃ x, DefAt P x d ∧ (build P).num x = n

theorem Q_of_av {q : Pt} {x : Id} (h : ∀ q', Next P q' q → Av P q' x) : Q P q ((build P).num x) := by
  intro q' hn t ht
  obtain ⟨d, hm, hd⟩ := h q' hn t ht
  exact ⟨d, hm, x, hd, rfl⟩

theorem Q_of_fwd {q : Pt} {y : Id} (h : Fwd P y q) : Q P q ((build P).num y) := by
  intro q' hn t ht
  obtain ⟨z, hz, hav, _⟩ := h q' hn
  obtain ⟨d, hm, hd⟩ := hav t ht
  exact ⟨d, hm, z, hd, hz⟩

/-- The instruction of an own number is not preceded by its class. -/
theorem own_not_Q {q : Pt} {o : Id} (hd : DefAt P o q) {t : List Pt} (ht : Trace P (q :: t))
    (h1 : B.key ((build P).num o) = none) (h2 : B.crt ((build P).num o) = o)
    (hQ : Q P q ((build P).num o)) : False := by
  have hq := head_order hV ht
  refine no_trace (T := fun t => ∃ s, t = q :: s) ?_ _ ht ⟨t, rfl⟩
  rintro _ ht ⟨s, rfl⟩
  obtain ⟨q', s', rfl, ht', hn⟩ := def_has_pred hV ht hd
  obtain ⟨d, hm, x, hdx, hnx⟩ := hQ q' hn s' ht'
  obtain ⟨u1, s1, e1⟩ := List.append_of_mem hm
  have htr := ht'
  rw [e1] at htr
  have htd := trace_suffix u1 htr (by simp)
  obtain ⟨u2, d2, s2, r, i2, e2, h3, h4, h5⟩ := root hV hI s1 d x htd hdx hnx
  have hro : r = o := by
    rcases h5 with h5 | ⟨u, w, ks, he, hk⟩
    · rw [← h5.2, h2]
    · have := hk.key
      have hr : i2.result = r := h3.2.1
      rw [hr, h4, h1] at this
      cases this
  subst hro
  rw [e2] at htd
  have htd2 := trace_suffix u2 htd (by simp)
  obtain ⟨i, hdi⟩ := hd
  have : d2 = q := (def_unique hV h3 hdi (head_order hV htd2) hq).1
  subst this
  refine ⟨_, htd2, ⟨s2, rfl⟩, ?_⟩
  have l1 := congrArg List.length e1
  have l2 := congrArg List.length e2
  simp at l1 l2 ⊢
  omega

/-- Components of the key of a class come before the class. -/
theorem Q_comp {q : Pt} {n m : Nat} {K : Key} (hQ : Q P q n) (hK : B.key n = some K)
    (hop : K.op ≠ "OpPhi") (hm : KOp.num m ∈ K.ops) : Q P q m := by
  intro q' hn t ht
  obtain ⟨d, hmd, x, hdx, hnx⟩ := hQ q' hn t ht
  obtain ⟨u1, s1, e1⟩ := List.append_of_mem hmd
  rw [e1] at ht ⊢
  have htd := trace_suffix u1 ht (by simp)
  obtain ⟨u2, d2, s2, r, i2, e2, h3, h4, h5⟩ := root hV hI s1 d x htd hdx hnx
  rw [e2] at htd ⊢
  have htd2 := trace_suffix u2 htd (by simp)
  rcases h5 with h5 | ⟨u, w, ks, he, hk⟩
  · rw [hK] at h5; cases h5.1
  · have hr : i2.result = r := h3.2.1
    have hkey := hk.key
    rw [hr, h4, hK] at hkey
    have hKe : K = ⟨i2.op, i2.ty, normal i2.op ks⟩ := by simpa using hkey
    rw [hKe] at hm hop
    simp only at hm hop
    rw [mem_normal] at hm
    have : ∃ z, z ∈ ids i2.ops ∧ (build P).num z = m ∧ m ≠ 0 := by
      have hall := hk.ops
      clear hk hkey hKe
      revert hm
      generalize i2.ops = l at hall
      induction hall with
      | nil => intro h; cases h
      | @cons o k l m' h1 h2 ih =>
        intro h
        rcases List.mem_cons.1 h with rfl | h
        · cases h1 with
          | num x hx => exact ⟨x, by simp [ids], rfl, hx⟩
        · obtain ⟨z, hz, hz'⟩ := ih h
          refine ⟨z, ?_, hz'⟩
          simp only [ids, List.mem_filterMap] at hz ⊢
          obtain ⟨o', ho', e⟩ := hz
          exact ⟨o', by simp [ho'], e⟩
    obtain ⟨z, hz, hzm, hm0⟩ := this
    obtain ⟨h30, h31, k, hk2, hke⟩ := h3
    rw [if_neg hop] at hke
    have hde : d2 = (d2.1, k + 1) := Prod.ext rfl hke
    obtain ⟨q2, s3, rfl, ht3, hn3⟩ := def_has_pred hV htd2 ⟨i2, h30, h31, k, hk2, by rw [if_neg hop]; exact hke⟩
    rw [hde] at hn3
    have := next_succ hn3
    subst this
    have hav : Av P (d2.1, k) z := by
      refine av_of_onTrace hV hI (by rw [hzm]; exact hm0) ?_
      intro t ht
      exact hV.doms _ _ _ i2 z ht hk2 hop hz
    obtain ⟨d3, hm3, hd3⟩ := hav s3 ht3
    exact ⟨d3, List.mem_append_right _ (List.mem_append_right _ (List.mem_cons_of_mem _ hm3)), z, hd3, hzm⟩

/-! ## Phis with keys -/

/-- How the operands of phis with the same key compare. -/
def PhiRel (P : Prog) (a a' : Id × Block) : Prop :=
  a.2 = a'.2 ∧ (a.1 = a'.1 ∨ (build P).num a.1 = (build P).num a'.1 ∧ (build P).num a.1 ≠ 0)

theorem normal_phi (ks : List KOp) : normal "OpPhi" ks = ks := by
  unfold normal
  have : isCommutative "OpPhi" = false := by decide
  split <;> simp [this]

theorem phi_rel {u u' : List Id} : ∀ (l l' : List (Id × Block)) (ks : List KOp),
    All2 (KopOK (build P).num u) (l.flatMap fun a => [.id a.1, .id a.2]) ks →
    All2 (KopOK (build P).num u') (l'.flatMap fun a => [.id a.1, .id a.2]) ks →
    (∀ a ∈ l, (build P).num a.2 = 0) → (∀ a ∈ l', (build P).num a.2 = 0) → All2 (PhiRel P) l l'
  | [], [], _, _, _, _, _ => .nil
  | [], a' :: l', ks, h, h', _, _ => by
    simp only [List.flatMap_nil] at h
    cases h
    simp only [List.flatMap_cons, List.cons_append] at h'
    cases h'
  | a :: l, [], ks, h, h', _, _ => by
    simp only [List.flatMap_nil] at h'
    cases h'
    simp only [List.flatMap_cons, List.cons_append] at h
    cases h
  | a :: l, a' :: l', ks, h, h', hl, hl' => by
    simp only [List.flatMap_cons, List.cons_append, List.nil_append] at h h'
    cases h with
    | cons h1 h =>
      cases h with
      | cons h2 h =>
        cases h' with
        | cons h1' h' =>
          cases h' with
          | cons h2' h' =>
            refine .cons ⟨?_, ?_⟩ (phi_rel l l' _ h h' (fun a ha => hl a (by simp [ha])) (fun a ha => hl' a (by simp [ha])))
            · generalize hx : a.2 = x at h2
              generalize hx' : a'.2 = x' at h2'
              cases h2 with
              | num _ h0 => exact absurd (hl a (by simp)) (by rw [hx]; exact h0)
              | raw _ _ => cases h2'; rfl
            · generalize a.1 = x at h1
              generalize a'.1 = x' at h1'
              cases h1 with
              | num _ h0 =>
                generalize hk : KOp.num ((build P).num x) = kk at h1'
                cases h1' with
                | num _ h0' =>
                  have : (build P).num x = (build P).num x' := by simpa using hk
                  exact .inr ⟨this, h0⟩
                | raw => cases hk
              | raw _ _ => cases h1'; exact .inl rfl

theorem phi_rel_of {i i' : Inst} {b b' : Block} {k k' : Nat} {u u' : List Id} {ks : List KOp}
    (hb : b ∈ P.order) (hb' : b' ∈ P.order) (hk : (P.insts b)[k]? = some i) (hk' : (P.insts b')[k']? = some i')
    (ho : i.op = "OpPhi") (ho' : i'.op = "OpPhi")
    (h : All2 (KopOK (build P).num u) i.ops ks) (h' : All2 (KopOK (build P).num u') i'.ops ks) :
    All2 (PhiRel P) (phiArgs i.ops) (phiArgs i'.ops) := by
  have e := (hV.phi_ops _ _ _ hb hk ho).2
  have e' := (hV.phi_ops _ _ _ hb' hk' ho').2
  refine phi_rel hV hI (u := u) (u' := u') _ _ ks (by rw [← e]; exact h) (by rw [← e']; exact h') ?_ ?_
  · intro a ha
    have := hV.labels _ _ _ a hb hk ho ha
    rw [← hI.pos] at this
    simpa using this
  · intro a ha
    have := hV.labels _ _ _ a hb' hk' ho' ha
    rw [← hI.pos] at this
    simpa using this

theorem phi_rel_labels {l l' : List (Id × Block)} (h : All2 (PhiRel P) l l') :
    l.map Prod.snd = l'.map Prod.snd := by
  induction h with
  | nil => rfl
  | cons h _ ih => simp [h.1, ih]

theorem phi_rel_find {l l' : List (Id × Block)} (h : All2 (PhiRel P) l l') (p : Block) (a : Id × Block)
    (ha : l.find? (fun a => a.2 == p) = some a) :
    ∃ a', l'.find? (fun a => a.2 == p) = some a' ∧ PhiRel P a a' := by
  induction h with
  | nil => cases ha
  | @cons c c' l l' h _ ih =>
    simp only [List.find?_cons] at ha ⊢
    by_cases e : c.2 = p
    · have e' : c'.2 = p := by rw [← h.1]; exact e
      simp [e] at ha
      subst ha
      exact ⟨c', by simp [e'], h⟩
    · have e' : c'.2 ≠ p := by rw [← h.1]; exact e
      have e1 : (c.2 == p) = false := by simpa using e
      have e2 : (c'.2 == p) = false := by simpa using e'
      rw [e1] at ha
      rw [e2]
      exact ih ha

/-- Phis with a key are not preceded by their class. -/
theorem phi_not_Q {q : Pt} {o : Id} {i : Inst} (hd : DefBy P o i q) {t : List Pt} (ht : Trace P (q :: t))
    (ho : i.op = "OpPhi") {u w : List Inst} {ks : List KOp} (hu : listing P = u ++ i :: w)
    (hk : Keyed P (build P).num B (u.map Inst.result) i ks) (hQ : Q P q ((build P).num o)) : False := by
  have hq := head_order hV ht
  obtain ⟨b, k0⟩ := q
  obtain ⟨h0, h1, k, hi, he⟩ := hd
  rw [if_pos ho] at he
  simp only at he hi hq
  subst he
  obtain ⟨q', s', rfl, ht', hn⟩ := def_has_pred hV ht ⟨i, h0, h1, k, hi, by rw [if_pos ho]⟩
  obtain ⟨hp, hlen⟩ := next_zero hn
  have hphi := hV.phi_preds b k _ i ht hi ho
  refine no_trace (P := P) (T := fun t => ∃ p s, t = (p, (P.insts p).length) :: s ∧ p ∈ P.preds b) ?_ _ ht'
    ⟨q'.1, s', by rw [← hlen], hp⟩
  rintro _ ht ⟨p, s, rfl, hp⟩
  obtain ⟨d, hm, x, hdx, hnx⟩ := hQ _ (.edge hp) s ht
  obtain ⟨u1, s1, e1⟩ := List.append_of_mem hm
  have htr := ht
  rw [e1] at htr
  have htd := trace_suffix u1 htr (by simp)
  obtain ⟨u2, d2, s2, r, i2, e2, h3, h4, h5⟩ := root hV hI s1 d x htd hdx hnx
  rw [e2] at htd
  have htd2 := trace_suffix u2 htd (by simp)
  have hkey := hk.key
  rw [h1] at hkey
  rcases h5 with h5 | ⟨v, w2, ks2, he2, hk2⟩
  · rw [h5.1] at hkey; cases hkey
  · have hr : i2.result = r := h3.2.1
    have hkey2 := hk2.key
    rw [hr, h4, hkey] at hkey2
    simp only [Option.some.injEq, Key.mk.injEq] at hkey2
    obtain ⟨eo, _, ek⟩ := hkey2
    rw [← eo, ho, normal_phi hV hI, normal_phi hV hI] at ek
    rw [ho] at eo
    subst ek
    obtain ⟨h30, h31, k2, hi2, hke⟩ := h3
    rw [if_pos eo.symm] at hke
    have hde : d2 = (d2.1, 0) := Prod.ext rfl hke
    obtain ⟨q2, s3, rfl, ht3, hn3⟩ := def_has_pred hV htd2
      ⟨i2, h30, h31, k2, hi2, by rw [if_pos eo.symm]; exact hke⟩
    rw [hde] at hn3 htd2
    obtain ⟨hp3, hlen3⟩ := next_zero hn3
    have hrel := phi_rel_of hV hI hq (head_order hV htd2) hi hi2 ho eo.symm hk.ops hk2.ops
    have hp2 := (hV.phi_preds _ k2 _ i2 htd2 hi2 eo.symm q2.1).1 hp3
    rw [← phi_rel_labels hV hI hrel] at hp2
    refine ⟨_, ht3, ⟨q2.1, s3, by rw [← hlen3], (hphi _).2 hp2⟩, ?_⟩
    have l1 := congrArg List.length e1
    have l2 := congrArg List.length e2
    simp at l1 l2 ⊢
    omega

end

end Verif.Vn
