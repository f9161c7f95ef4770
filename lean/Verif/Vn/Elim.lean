import Verif.Vn.Values

/-
# Removing redundant instructions
-/

set_option linter.unusedSimpArgs false
set_option linter.unusedVariables false
set_option linter.unusedSectionVars false

namespace Verif.Vn

/-- What is needed of the replacements. -/
structure RepOK (P : Prog) (rep : List (Id × Id)) : Prop where
  num : ∀ e ∈ rep, (build P).num e.1 ≠ 0 ∧ (build P).num e.1 = (build P).num e.2
  dom : ∀ e ∈ rep, ∀ q t, DefAt P e.1 q → Trace P (q :: t) → ∃ d ∈ q :: t, DefAt P e.2 d
  live : ∀ e ∈ rep, e.2 ∉ rep.map Prod.fst

theorem lookup_mem {α : Type} [BEq α] [LawfulBEq α] {β : Type} {a : α} {b : β} :
    ∀ {l : List (α × β)}, l.lookup a = some b → (a, b) ∈ l
  | [], h => by cases h
  | (x, y) :: l, h => by
    rw [List.lookup_cons] at h
    by_cases e : a = x
    · subst e; simp at h; simp [h]
    · have e' : (a == x) = false := by simpa using e
      rw [e'] at h
      exact List.mem_cons_of_mem _ (lookup_mem h)

theorem lookup_none {α : Type} [BEq α] [LawfulBEq α] {β : Type} {a : α} :
    ∀ {l : List (α × β)}, l.lookup a = none ↔ a ∉ l.map Prod.fst
  | [] => by simp
  | (x, y) :: l => by
    rw [List.lookup_cons]
    by_cases e : a = x
    · subst e; simp
    · have e' : (a == x) = false := by simpa using e
      rw [e', List.map_cons, List.mem_cons, not_or]
      have := lookup_none (a := a) (l := l)
      simp only [ne_eq, e, not_false_eq_true, true_and]
      simpa using this

section
variable {Val : Type} {P : Prog} {B : Base} {S : Sem Val} {G : Id → Val} {rep : List (Id × Id)}
variable (hV : Valid P) (hI : Inv P (listing P) (build P) B) (hC : Clean P) (hS : S.Ok P) (hR : RepOK P rep)
include hV hI hC hS hR

theorem use_val {q : Pt} {t : List Pt} (ht : Trace P (q :: t)) {z : Id}
    (ih : ∀ x, rep.lookup x = none → run P S rep G (q :: t) x = run P S [] G (q :: t) x)
    (hz : ∀ t, Trace P (q :: t) → OnTrace P z (q :: t)) :
    run P S rep G (q :: t) (use rep z) = run P S [] G (q :: t) z := by
  cases hl : rep.lookup z with
  | none => simp only [use, hl, Option.getD_none]; exact ih z hl
  | some c =>
    have hm := lookup_mem hl
    obtain ⟨h0, he⟩ := hR.num _ hm
    simp only [use, hl, Option.getD_some]
    rw [ih c (lookup_none.2 (hR.live _ hm))]
    have hzav : Av P q z := av_of_onTrace hV hI h0 hz
    have hcav : Av P q c := by
      intro t ht
      obtain ⟨d, hd, hdd⟩ := hzav t ht
      obtain ⟨u, s, e⟩ := List.append_of_mem hd
      rw [e] at ht ⊢
      obtain ⟨d', hd', hdd'⟩ := hR.dom _ hm d s hdd (trace_suffix u ht (by simp))
      exact ⟨d', List.mem_append_right _ hd', hdd'⟩
    exact (equal_values hV hI hC hS ht h0 he hzav hcav).symm

theorem eval_val {q : Pt} {t : List Pt} (ht : Trace P (q :: t))
    (ih : ∀ x, rep.lookup x = none → run P S rep G (q :: t) x = run P S [] G (q :: t) x) {ops : List Opnd}
    (hz : ∀ z ∈ ids ops, ∀ t, Trace P (q :: t) → OnTrace P z (q :: t)) :
    ops.map (Opnd.eval rep (run P S rep G (q :: t))) = ops.map (Opnd.eval [] (run P S [] G (q :: t))) := by
  apply List.map_congr_left
  intro o ho
  cases o with
  | lit ws => rfl
  | id z =>
    simp only [Opnd.eval]
    rw [use_val hV hI hC hS hR ht ih (hz z ?_)]
    · rfl
    · simp only [ids, List.mem_filterMap]
      exact ⟨_, ho, rfl⟩

theorem live_values : ∀ (t : List Pt) (q : Pt), Trace P (q :: t) → ∀ x, rep.lookup x = none →
    run P S rep G (q :: t) x = run P S [] G (q :: t) x := by
  intro t
  induction t with
  | nil =>
    intro q ht x _
    rw [trace_one.1 ht, run, run]
  | cons q' t ih =>
    intro q ht x hx
    have hq := head_order hV ht
    obtain ⟨ht', hn⟩ := trace_cons.1 ht
    have ih' := ih q' ht'
    by_cases hd : DefAt P x q
    · obtain ⟨i, h0, h1, k, hi, he⟩ := hd
      obtain ⟨b, k0⟩ := q
      simp only at he hi hq
      have hkl : killed rep i = false := by simp [killed, h1, hx]
      by_cases ho : i.op = "OpPhi"
      · rw [if_pos ho] at he
        subst he
        obtain ⟨hp, hlen⟩ := next_zero hn
        obtain ⟨p, kp⟩ := q'
        simp only at hp hlen
        subst hlen
        obtain ⟨a, ha, ham, hap⟩ := find_label hV hI ((hV.phi_preds b k _ i ht hi ho p).1 hp)
        rw [run_phi hV hq hi ho h1 hkl ha, run_phi hV hq hi ho h1 rfl ha]
        rw [use_val hV hI hC hS hR ht' ih' (fun t ht => hV.phi_doms _ _ k t i a ht hp hi ho ham hap)]
        rfl
      · rw [if_neg ho] at he
        subst he
        have := next_succ hn
        subst this
        rw [← h1, run_inst hi ho (by rw [h1]; exact h0) hkl, run_inst hi ho (by rw [h1]; exact h0) rfl]
        rw [eval_val hV hI hC hS hR ht' ih' (fun z hz t ht => hV.doms _ _ _ i z ht hi ho hz)]
    · rw [run_keep hV hq hd, run_keep hV hq hd]
      exact ih' x hx

end

/-! ## The loop over the instructions of a block -/

/-- Computed on the way to `b`. -/
def Ent (P : Prog) (b : Block) (c : Id) : Prop :=
  ∀ t, Trace P ((b, 0) :: t) → ∃ d ∈ (b, 0) :: t, DefAt P c d

/-- An entry of the map of values at instruction `j` of `b`. -/
def EntryOK (P : Prog) (b : Block) (j : Nat) (n : Nat) (c : Id) : Prop :=
  (build P).num c = n ∧ n ≠ 0 ∧
    (Ent P b c ∨ ∃ (j' : Nat) (i' : Inst), j' < j ∧ (P.insts b)[j']? = some i' ∧ i'.result = c ∧ c ≠ 0)

theorem EntryOK.mono {P : Prog} {b : Block} {j j' n : Nat} {c : Id} (h : EntryOK P b j n c) (hj : j ≤ j') :
    EntryOK P b j' n c := by
  obtain ⟨h1, h2, h3⟩ := h
  refine ⟨h1, h2, ?_⟩
  rcases h3 with h | ⟨k, i, h, h'⟩
  · exact .inl h
  · exact .inr ⟨k, i, by omega, h'⟩

structure ElimOut (P : Prog) (b : Block) (is : List Inst) (m : List (Nat × Id)) (out : List (Id × Id))
    (m' : List (Nat × Id)) : Prop where
  entries : ∀ e ∈ m', EntryOK P b (P.insts b).length e.1 e.2
  reps : ∀ e ∈ out, ∃ (j : Nat) (i : Inst), (P.insts b)[j]? = some i ∧ i.result = e.1 ∧ e.1 ≠ 0 ∧
    EntryOK P b j ((build P).num e.1) e.2
  from_map : ∀ e ∈ m', e ∈ m ∨ e.2 ≠ 0 ∧ ∃ i ∈ is, i.result = e.2
  from_insts : ∀ e ∈ out, ∃ i ∈ is, i.result = e.1
  target : ∀ e ∈ out, ∃ n, (n, e.2) ∈ m'
  live : ∀ e ∈ m', e.2 ∉ out.map Prod.fst

theorem elimInsts_spec {P : Prog} {b : Block} (hu : ∀ (k k' : Nat) (i i' : Inst), (P.insts b)[k]? = some i →
      (P.insts b)[k']? = some i' → i.result = i'.result → i.result ≠ 0 → k = k') :
    ∀ (is pre : List Inst) (m : List (Nat × Id)), P.insts b = pre ++ is →
      (∀ e ∈ m, EntryOK P b pre.length e.1 e.2) →
      (∀ e ∈ m, ∀ i ∈ is, i.result ≠ 0 → i.result ≠ e.2) →
      ElimOut P b is m (elimInsts (build P).num is m).1 (elimInsts (build P).num is m).2
  | [], pre, m, e, hm, hd => by
    simp only [elimInsts]
    exact ⟨fun x hx => (hm x hx).mono (by rw [e]; simp), by simp, fun x hx => .inl hx, by simp, by simp, by simp⟩
  | i :: is, pre, m, e, hm, hd => by
    have e' : P.insts b = (pre ++ [i]) ++ is := by rw [e]; simp
    have hi : (P.insts b)[pre.length]? = some i := by rw [e]; simp
    have hlater : ∀ i2 ∈ is, i2.result ≠ 0 → i2.result ≠ i.result := by
      intro i2 h2 h0 he
      obtain ⟨k2, hk2⟩ := List.getElem?_of_mem h2
      have : (P.insts b)[pre.length + 1 + k2]? = some i2 := by
        rw [e', List.getElem?_append_right (by simp)]
        simpa using hk2
      have := hu _ _ _ _ this hi he h0
      omega
    rw [elimInsts]
    split
    · have ih := elimInsts_spec hu is (pre ++ [i]) m e' (fun x hx => (hm x hx).mono (by simp))
        (fun x hx i2 h2 => hd x hx i2 (by simp [h2]))
      refine ⟨ih.entries, ih.reps, ?_, ?_, ih.target, ih.live⟩
      · intro x hx
        rcases ih.from_map x hx with h | ⟨h0, i2, h2, h3⟩
        · exact .inl h
        · exact .inr ⟨h0, i2, by simp [h2], h3⟩
      · intro x hx
        obtain ⟨i2, h2, h3⟩ := ih.from_insts x hx
        exact ⟨i2, by simp [h2], h3⟩
    · rename_i hc
      simp only [not_or] at hc
      split
      · rename_i c hl
        have hmem := lookup_mem hl
        have ih := elimInsts_spec hu is (pre ++ [i]) m e' (fun x hx => (hm x hx).mono (by simp))
          (fun x hx i2 h2 => hd x hx i2 (by simp [h2]))
        have hsub : (elimInsts (build P).num is m).2 = (elimInsts (build P).num is m).2 := rfl
        refine ⟨ih.entries, ?_, ?_, ?_, ?_, ?_⟩
        · intro x hx
          rcases List.mem_cons.1 hx with rfl | hx
          · exact ⟨pre.length, i, hi, rfl, hc.1, hm _ hmem⟩
          · exact ih.reps x hx
        · intro x hx
          rcases ih.from_map x hx with h | ⟨h0, i2, h2, h3⟩
          · exact .inl h
          · exact .inr ⟨h0, i2, by simp [h2], h3⟩
        · intro x hx
          rcases List.mem_cons.1 hx with rfl | hx
          · exact ⟨i, by simp, rfl⟩
          · obtain ⟨i2, h2, h3⟩ := ih.from_insts x hx
            exact ⟨i2, by simp [h2], h3⟩
        · intro x hx
          rcases List.mem_cons.1 hx with rfl | hx
          · exact ⟨_, elimInsts_grows _ _ _ hmem⟩
          · exact ih.target x hx
        · intro x hx hk
          rw [List.map_cons, List.mem_cons] at hk
          rcases hk with hk | hk
          · rcases ih.from_map x hx with h | ⟨h0, i2, h2, h3⟩
            · exact hd x h i (by simp) hc.1 hk.symm
            · exact hlater i2 h2 (by rw [h3]; exact h0) (by rw [h3, hk])
          · exact ih.live x hx hk
      · have ih := elimInsts_spec hu is (pre ++ [i]) (((build P).num i.result, i.result) :: m) e' (by
          intro x hx
          rcases List.mem_cons.1 hx with rfl | hx
          · exact ⟨rfl, hc.2, .inr ⟨pre.length, i, by simp, hi, rfl, hc.1⟩⟩
          · exact (hm x hx).mono (by simp)) (by
          intro x hx i2 h2 h0
          rcases List.mem_cons.1 hx with rfl | hx
          · exact hlater i2 h2 h0
          · exact hd x hx i2 (by simp [h2]) h0)
        refine ⟨ih.entries, ih.reps, ?_, ?_, ih.target, ih.live⟩
        · intro x hx
          rcases ih.from_map x hx with h | ⟨h0, i2, h2, h3⟩
          · rcases List.mem_cons.1 h with rfl | h
            · exact .inr ⟨hc.1, i, by simp, rfl⟩
            · exact .inl h
          · exact .inr ⟨h0, i2, by simp [h2], h3⟩
        · intro x hx
          obtain ⟨i2, h2, h3⟩ := ih.from_insts x hx
          exact ⟨i2, by simp [h2], h3⟩
where
  elimInsts_grows {num : Id → Nat} : ∀ (is : List Inst) (m : List (Nat × Id)) (e : Nat × Id), e ∈ m →
      e ∈ (elimInsts num is m).2
    | [], m, e, h => h
    | i :: is, m, e, h => by
      rw [elimInsts]
      split
      · exact elimInsts_grows is m e h
      · split
        · exact elimInsts_grows is m e h
        · exact elimInsts_grows is _ e (by simp [h])

/-! ## From positions to traces -/

theorem trace_block {P : Prog} {b : Block} : ∀ {k : Nat} {t : List Pt}, Trace P ((b, k) :: t) →
    ∀ j ≤ k, (b, j) ∈ (b, k) :: t
  | 0, t, _, j, hj => by
    have : j = 0 := by omega
    subst this; simp
  | k + 1, t, h, j, hj => by
    cases h with
    | step h hk =>
      by_cases e : j = k + 1
      · subst e; simp
      · exact List.mem_cons_of_mem _ (trace_block h j (by omega))

theorem ent_at {P : Prog} {b : Block} {c : Id} (h : Ent P b c) {k : Nat} {t : List Pt}
    (ht : Trace P ((b, k) :: t)) : ∃ d ∈ (b, k) :: t, DefAt P c d := by
  have hm := trace_block ht 0 (Nat.zero_le _)
  obtain ⟨u, s, e⟩ := List.append_of_mem hm
  rw [e] at ht ⊢
  obtain ⟨d, hd, hdd⟩ := h s (trace_suffix u ht (by simp))
  exact ⟨d, List.mem_append_right _ hd, hdd⟩

/-- The entries at the end of a block are computed on the way to blocks it dominates. -/
theorem ent_child {P : Prog} {b c : Block} {n : Nat} {x : Id} (h : EntryOK P b (P.insts b).length n x)
    (hdom : ∀ t, Trace P ((c, 0) :: t) → (b, (P.insts b).length) ∈ t) : Ent P c x := by
  intro t ht
  have hm := hdom t ht
  have hne : ∃ q s, t = q :: s := by cases t with
    | nil => cases hm
    | cons q s => exact ⟨q, s, rfl⟩
  obtain ⟨u, s, e⟩ := List.append_of_mem hm
  have hts : Trace P ((b, (P.insts b).length) :: s) := by
    have : (c, 0) :: t = ((c, 0) :: u) ++ (b, (P.insts b).length) :: s := by rw [e]; rfl
    rw [this] at ht
    exact trace_suffix _ ht (by simp)
  have : ∃ d ∈ (b, (P.insts b).length) :: s, DefAt P x d := by
    rcases h.2.2 with h | ⟨j, i, hj, hi, hr, h0⟩
    · exact ent_at h hts
    · refine ⟨(b, if i.op = "OpPhi" then 0 else j + 1), trace_block hts _ ?_, i, h0, hr, j, hi, rfl⟩
      split <;> omega
  obtain ⟨d, hd, hdd⟩ := this
  exact ⟨d, by rw [e]; exact List.mem_cons_of_mem _ (List.mem_append_right _ hd), hdd⟩

theorem rep_dom {P : Prog} (hV : Valid P) {b : Block} (hb : b ∈ P.order) {j n : Nat} {i : Inst} {r c : Id}
    (hi : (P.insts b)[j]? = some i) (hr : i.result = r) (h0 : r ≠ 0) (h : EntryOK P b j n c) (q : Pt)
    (t : List Pt) (hd : DefAt P r q) (ht : Trace P (q :: t)) : ∃ d ∈ q :: t, DefAt P c d := by
  obtain ⟨i', hd⟩ := hd
  have hdi : DefBy P r i (b, if i.op = "OpPhi" then 0 else j + 1) := ⟨h0, hr, j, hi, rfl⟩
  obtain ⟨e, _⟩ := def_unique hV hd hdi (head_order hV ht) hb
  subst e
  rcases h.2.2 with h | ⟨j', i2, hj, hi2, hr2, h2⟩
  · exact ent_at h ht
  · refine ⟨(b, if i2.op = "OpPhi" then 0 else j' + 1), trace_block ht _ ?_, i2, h2, hr2, j', hi2, rfl⟩
    by_cases ho : i.op = "OpPhi"
    · obtain ⟨i3, h3, h3'⟩ := (hV.phi_first b j i hb hi ho).2 j' hj
      have : i3 = i2 := by rw [hi2] at h3; simpa using h3.symm
      subst this
      simp [ho, h3']
    · rw [if_neg ho]
      split <;> omega

/-! ## The passes -/

/-- `x` is a result of one of the blocks `bs`. -/
def ResIn (P : Prog) (bs : List Block) (x : Id) : Prop :=
  x ≠ 0 ∧ ∃ b ∈ bs, ∃ i ∈ P.insts b, i.result = x

theorem resIn_disjoint {P : Prog} (hV : Valid P) {bs : List Block} {b : Block} (hbs : ∀ c ∈ bs, c ∈ P.order)
    (hb : b ∈ P.order) (hn : b ∉ bs) {x : Id} (h : ResIn P bs x) {i : Inst} (hi : i ∈ P.insts b) :
    i.result ≠ x := by
  rintro rfl
  obtain ⟨h0, c, hc, i', hi', he⟩ := h
  obtain ⟨k, hk⟩ := List.getElem?_of_mem hi
  obtain ⟨k', hk'⟩ := List.getElem?_of_mem hi'
  have := hV.unique b c k k' i i' hb (hbs c hc) hk hk' he.symm h0
  exact hn (this.1 ▸ hc)

/-- The replacements made while visiting `vis`. -/
structure Sofar (P : Prog) (vis : List Block) (rep : List (Id × Id)) : Prop where
  ok : RepOK P rep
  src : ∀ e ∈ rep, ResIn P vis e.1
  tgt : ∀ e ∈ rep, ResIn P vis e.2

theorem Sofar.visit {P : Prog} (hV : Valid P) {vis : List Block} {rep : List (Id × Id)}
    (h : Sofar P vis rep) (hvis : ∀ c ∈ vis, c ∈ P.order) {b : Block} (hb : b ∈ P.order) (hn : b ∉ vis)
    {m : List (Nat × Id)} (hm : ∀ e ∈ m, EntryOK P b 0 e.1 e.2) (hms : ∀ e ∈ m, ResIn P vis e.2)
    (hml : ∀ e ∈ m, e.2 ∉ rep.map Prod.fst) :
    Sofar P (vis ++ [b]) (rep ++ (elimInsts (build P).num (P.insts b) m).1) ∧
    (∀ e ∈ (elimInsts (build P).num (P.insts b) m).2, EntryOK P b (P.insts b).length e.1 e.2 ∧
      ResIn P (vis ++ [b]) e.2 ∧ e.2 ∉ (rep ++ (elimInsts (build P).num (P.insts b) m).1).map Prod.fst) := by
  have hspec := elimInsts_spec (P := P) (b := b)
    (fun k k' i i' h1 h2 h3 h4 => (hV.unique b b k k' i i' hb hb h1 h2 h3 h4).2) (P.insts b) [] m rfl
    (by simpa using hm) (fun e he i hi h0 => resIn_disjoint hV hvis hb hn (hms e he) hi)
  generalize elimInsts (build P).num (P.insts b) m = r at *
  obtain ⟨out, m'⟩ := r
  simp only at hspec ⊢
  have hmono : ∀ x, ResIn P vis x → ResIn P (vis ++ [b]) x := by
    rintro x ⟨h0, c, hc, h⟩
    exact ⟨h0, c, by simp [hc], h⟩
  have hsrc : ∀ e ∈ out, e.1 ≠ 0 ∧ ∃ i ∈ P.insts b, i.result = e.1 := by
    intro e he
    obtain ⟨j, i, hi, hr, h0, _⟩ := hspec.reps e he
    exact ⟨h0, i, List.mem_of_getElem? hi, hr⟩
  have hm' : ∀ e ∈ m', ResIn P (vis ++ [b]) e.2 ∧ e.2 ∉ (rep ++ out).map Prod.fst := by
    intro e he
    refine ⟨?_, ?_⟩
    · rcases hspec.from_map e he with h1 | ⟨h0, h1⟩
      · exact hmono _ (hms e h1)
      · exact ⟨h0, b, by simp, h1⟩
    · rw [List.map_append, List.mem_append, not_or]
      refine ⟨?_, hspec.live e he⟩
      rcases hspec.from_map e he with h1 | ⟨h0, i, hi, h1⟩
      · exact hml e h1
      · intro hk
        simp only [List.mem_map] at hk
        obtain ⟨e', he', h2⟩ := hk
        exact resIn_disjoint hV hvis hb hn (h.src e' he') hi (by rw [h1, h2])
  have hold : ∀ e ∈ rep, e.2 ∉ out.map Prod.fst := by
    intro e he hk
    simp only [List.mem_map] at hk
    obtain ⟨e', he', h2⟩ := hk
    obtain ⟨_, i, hi, h3⟩ := hsrc e' he'
    exact resIn_disjoint hV hvis hb hn (h.tgt e he) hi (by rw [h3, h2])
  refine ⟨⟨⟨?_, ?_, ?_⟩, ?_, ?_⟩, fun e he => ⟨hspec.entries e he, hm' e he⟩⟩
  · intro e he
    rcases List.mem_append.1 he with he | he
    · exact h.ok.num e he
    · obtain ⟨j, i, hi, hr, h0, h1, h2, _⟩ := hspec.reps e he
      exact ⟨h2, h1.symm⟩
  · intro e he
    rcases List.mem_append.1 he with he | he
    · exact h.ok.dom e he
    · obtain ⟨j, i, hi, hr, h0, h1⟩ := hspec.reps e he
      intro q t hd ht
      exact rep_dom hV hb hi hr h0 h1 q t hd ht
  · intro e he
    rcases List.mem_append.1 he with he | he
    · rw [List.map_append, List.mem_append, not_or]
      exact ⟨h.ok.live e he, hold e he⟩
    · obtain ⟨n, hn⟩ := hspec.target e he
      exact (hm' _ hn).2
  · intro e he
    rcases List.mem_append.1 he with he | he
    · exact hmono _ (h.src e he)
    · exact ⟨(hsrc e he).1, b, by simp, (hsrc e he).2⟩
  · intro e he
    rcases List.mem_append.1 he with he | he
    · exact hmono _ (h.tgt e he)
    · obtain ⟨n, hn⟩ := hspec.target e he
      exact (hm' _ hn).1

theorem elimLocal_ok {P : Prog} (hV : Valid P) : ∀ (bs vis : List Block) (rep : List (Id × Id)),
    Sofar P vis rep → (∀ c ∈ vis ++ bs, c ∈ P.order) → (vis ++ bs).Nodup →
    Sofar P (vis ++ bs) (rep ++ elimLocal (build P).num P.insts bs)
  | [], vis, rep, h, _, _ => by simpa [elimLocal] using h
  | b :: bs, vis, rep, h, hm, hn => by
    have hb : b ∉ vis := by
      rw [List.nodup_append] at hn
      intro hv
      exact hn.2.2 b hv b (by simp) rfl
    have := (h.visit hV (fun c hc => hm c (by simp [hc])) (hm b (by simp)) hb (m := []) (by simp) (by simp) (by simp)).1
    have := elimLocal_ok hV bs (vis ++ [b]) _ this (by simpa using hm) (by simpa using hn)
    simpa [elimLocal] using this

theorem elimFrom_ok {P : Prog} (hV : Valid P) {root : Block} {children : Block → List Block}
    (hT : DomTree P root children) : ∀ (fuel : Nat) (todo : List (Block × List (Nat × Id))) (vis : List Block)
      (rep rest : List (Id × Id)), Sofar P vis rep → (vis ++ todo.map Prod.fst).Nodup →
      (∀ c ∈ vis ++ todo.map Prod.fst, c ∈ P.order ∧ (c = root ∨ ∃ p ∈ vis, c ∈ children p)) →
      (∀ x ∈ todo, ∀ e ∈ x.2, EntryOK P x.1 0 e.1 e.2 ∧ ResIn P vis e.2 ∧ e.2 ∉ rep.map Prod.fst) →
      elimFrom (build P).num P.insts children fuel todo = some rest → RepOK P (rep ++ rest)
  | fuel, [], vis, rep, rest, h, _, _, _, he => by
    cases fuel <;> simp [elimFrom] at he <;> subst he <;> simpa using h.ok
  | 0, _ :: _, _, _, _, _, _, _, _, he => by simp [elimFrom] at he
  | fuel + 1, (b, m) :: todo, vis, rep, rest, h, hn, hm, hx, he => by
    simp only [elimFrom, Option.map_eq_some_iff] at he
    obtain ⟨rest', he, rfl⟩ := he
    have hbv : b ∉ vis := by
      rw [List.nodup_append] at hn
      intro hv
      exact hn.2.2 b hv b (by simp) rfl
    have hb := (hm b (by simp)).1
    obtain ⟨h1, h2⟩ := h.visit hV (fun c hc => (hm c (by simp [hc])).1) hb hbv (m := m)
      (fun e he => (hx (b, m) (by simp) e he).1) (fun e he => (hx (b, m) (by simp) e he).2.1)
      (fun e he => (hx (b, m) (by simp) e he).2.2)
    have hchild : ∀ c ∈ children b, c ∉ vis ++ b :: todo.map Prod.fst := by
      intro c hc hin
      rcases (hm c (by simpa using hin)).2 with e | ⟨p, hp, hcp⟩
      · exact hT.root_top b (e ▸ hc)
      · exact hbv (hT.single _ _ _ hcp hc ▸ hp)
    rw [← List.append_assoc]
    refine elimFrom_ok hV hT fuel _ (vis ++ [b]) _ rest' h1 ?_ ?_ ?_ he
    · have e1 : (vis ++ [b]) ++ (todo ++ (children b).map fun c =>
          (c, (elimInsts (build P).num (P.insts b) m).2)).map Prod.fst =
          (vis ++ b :: todo.map Prod.fst) ++ children b := by
        simp [List.map_map, Function.comp_def]
      rw [e1, List.nodup_append]
      refine ⟨by simpa using hn, hT.nodup b, ?_⟩
      rintro x hx y hy rfl
      exact hchild x hy hx
    · intro c hc
      simp only [List.map_append, List.map_map, List.mem_append, List.mem_map, Function.comp_def,
        List.mem_singleton] at hc
      have hup : ∀ c, (c = root ∨ ∃ p ∈ vis, c ∈ children p) → (c = root ∨ ∃ p ∈ vis ++ [b], c ∈ children p) := by
        rintro c (h | ⟨p, hp, h⟩)
        · exact .inl h
        · exact .inr ⟨p, by simp [hp], h⟩
      rcases hc with (hc | rfl) | ⟨x, hc, rfl⟩ | ⟨c', hc, rfl⟩
      · have := hm c (by simp [hc]); exact ⟨this.1, hup _ this.2⟩
      · have := hm c (by simp); exact ⟨this.1, hup _ this.2⟩
      · have := hm x.1 (by simp only [List.mem_append, List.mem_map, List.map_cons, List.mem_cons]; exact .inr (.inr ⟨x, hc, rfl⟩))
        exact ⟨this.1, hup _ this.2⟩
      · exact ⟨hT.mem b _ hc hb, .inr ⟨b, by simp, hc⟩⟩
    · intro x hxm e hem
      rcases List.mem_append.1 hxm with hxm | hxm
      · obtain ⟨h3, h4, h5⟩ := hx x (by simp [hxm]) e hem
        refine ⟨h3, ?_, ?_⟩
        · obtain ⟨h0, c, hc, h⟩ := h4
          exact ⟨h0, c, by simp [hc], h⟩
        · rw [List.map_append, List.mem_append, not_or]
          refine ⟨h5, ?_⟩
          intro hk
          simp only [List.mem_map] at hk
          obtain ⟨e', he', h6⟩ := hk
          have hs := h1.src e' (by simp [he'])
          -- the removed id is one of `b`, the entry one of `vis`
          have hsp := elimInsts_spec (P := P) (b := b)
            (fun k k' i i' h1 h2 h3 h4 => (hV.unique b b k k' i i' hb hb h1 h2 h3 h4).2) (P.insts b) [] m rfl
            (fun e he => by simpa using (hx (b, m) (by simp) e he).1)
            (fun e he i hi h0 => resIn_disjoint hV (fun c hc => (hm c (by simp [hc])).1) hb hbv
              (hx (b, m) (by simp) e he).2.1 hi)
          obtain ⟨i, hi, hr⟩ := hsp.from_insts e' he'
          exact resIn_disjoint hV (fun c hc => (hm c (by simp [hc])).1) hb hbv h4 hi (by rw [hr, h6])
      · simp only [List.mem_map] at hxm
        obtain ⟨c, hc, rfl⟩ := hxm
        obtain ⟨h3, h4, h5⟩ := h2 e hem
        refine ⟨⟨h3.1, h3.2.1, .inl (ent_child h3 (fun t ht => hT.dom b c t hc ht))⟩, h4, h5⟩

end Verif.Vn
