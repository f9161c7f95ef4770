import Verif.Vn.Sound

/-
# Equal numbers, equal values: the induction along a trace
-/

set_option linter.unusedSimpArgs false
set_option linter.unusedVariables false
set_option linter.unusedSectionVars false

namespace Verif.Vn

/-- The value of an operand of a key, `w` giving the values of the classes. -/
def kval {Val : Type} (G : Id → Val) (w : Nat → Val) : KOp → Arg Val
  | .num m => .val (w m)
  | .raw x => .val (G x)
  | .lit ws => .lit ws

/-- `w` is a value of class `n` at `q`: that of a member available there, or what the key
yields for values of its components. -/
inductive Ev {Val : Type} (P : Prog) (B : Base) (S : Sem Val) (G : Id → Val) (q : Pt) (v : Id → Val) :
    Nat → Val → Prop
  | leaf {n} (o : Id) : (build P).num o = n → n ≠ 0 → Av P q o → Ev P B S G q v n (v o)
  | node {n} (K : Key) (w : Nat → Val) : B.key n = some K → K.op ≠ "OpPhi" →
      (∀ m, KOp.num m ∈ K.ops → Ev P B S G q v m (w m)) →
      Ev P B S G q v n (S.fn K.op K.ty (B.dc n) (K.ops.map (kval G w)))

section
theorem commutes_of {op : String} (h : isCommutative op = true) : commutes op = true := by
  simp only [isCommutative, commutes, List.contains_eq_mem, decide_eq_true_eq, List.mem_cons, List.not_mem_nil, or_false] at h ⊢
  exact h

theorem isLoad_of {op : String} (h : reads op = true) : isLoad op = true := by
  simp only [isLoad, reads, List.contains_eq_mem, decide_eq_true_eq, List.mem_cons, List.not_mem_nil, or_false] at h ⊢
  exact h

variable {Val : Type} {P : Prog} {B : Base} {S : Sem Val} {G : Id → Val}
variable (hV : Valid P) (hI : Inv P (listing P) (build P) B) (hC : Clean P) (hS : S.Ok P)

/-- The claim at the end of a trace. -/
def V (P : Prog) (B : Base) (S : Sem Val) (G : Id → Val) (q : Pt) (t : List Pt) : Prop :=
  ∀ y w, (build P).num y ≠ 0 → Av P q y → Ev P B S G q (run P S [] G (q :: t)) ((build P).num y) w →
    run P S [] G (q :: t) y = w

theorem fn_normal {op : String} {ty : Id} {d : List Nat} {ks : List KOp} {f : KOp → Arg Val} (hS : S.Ok P) :
    S.fn op ty d ((normal op ks).map f) = S.fn op ty d (ks.map f) := by
  unfold normal
  split
  · split
    · rename_i h
      simp only [Bool.and_eq_true] at h
      simp only [List.map_cons, List.map_nil]
      exact hS.comm _ _ _ _ _ (commutes_of h.1)
    · rfl
  · rfl

include hV hI hC hS

theorem functional_of {i : Inst} {b : Block} {k : Nat} (hb : b ∈ P.order) (hi : (P.insts b)[k]? = some i)
    (ho : ownNumber P i = false) : Functional P i := by
  have hc := hC b hb i (List.mem_of_getElem? hi)
  simp only [ownNumber, Bool.or_eq_false_iff] at ho
  obtain ⟨⟨⟨h1, h2⟩, h3⟩, h4⟩ := ho
  refine ⟨?_, ?_, hc.1, fun hl => ⟨?_, hc.2⟩⟩
  · revert h1
    cases isCombinator P i <;> cases P.debug i <;> simp
  · rintro e
    rw [e] at h2
    exact absurd h2 (by decide)
  · rw [isLoad_of hl] at h4
    simpa using h4

/-- What a keyed instruction computes, in terms of its key. -/
theorem node_of {o : Id} {i : Inst} {b : Block} {k : Nat} {t : List Pt}
    (ht : Trace P ((b, k + 1) :: (b, k) :: t)) (hi : (P.insts b)[k]? = some i) (hr : i.result = o)
    (h0 : o ≠ 0) (ho : i.op ≠ "OpPhi") {u w : List Inst} {ks : List KOp} (hu : listing P = u ++ i :: w)
    (hk : Keyed P (build P).num B (u.map Inst.result) i ks) (hv : V P B S G (b, k) t) :
    ∃ w : Nat → Val,
      run P S [] G ((b, k + 1) :: (b, k) :: t) o =
        S.fn i.op i.ty (B.dc ((build P).num o)) ((normal i.op ks).map (kval G w)) ∧
      ∀ m, KOp.num m ∈ ks → ∃ x, (build P).num x = m ∧ m ≠ 0 ∧ Av P (b, k) x ∧
        w m = run P S [] G ((b, k) :: t) x := by
  have hb := head_order hV ht
  have htb := (trace_cons.1 ht).1
  have hav : ∀ x ∈ ids i.ops, (build P).num x ≠ 0 → Av P (b, k) x := by
    intro x hx hx0
    refine av_of_onTrace hV hI hx0 ?_
    intro t ht
    exact hV.doms _ _ _ i x ht hi ho hx
  have hagree : ∀ x ∈ ids i.ops, ∀ x' ∈ ids i.ops, (build P).num x ≠ 0 → (build P).num x' = (build P).num x →
      run P S [] G ((b, k) :: t) x = run P S [] G ((b, k) :: t) x' := by
    intro x hx x' hx' h0 he
    refine hv x _ h0 (hav x hx h0) (.leaf x' he h0 (hav x' hx' (by rw [he]; exact h0)))
  have hraw : ∀ x ∈ ids i.ops, x ∉ u.map Inst.result → run P S [] G ((b, k) :: t) x = G x := by
    intro x hx hxu
    have hn : (build P).num x = 0 := by
      by_cases e : (build P).num x = 0
      · exact e
      · have hm := (hI.pos x).1 e
        obtain ⟨u', w', e', hm'⟩ := hV.before b k t i x htb hi ho (by rw [hr]; exact h0) hx hm
        rw [← list_split_unique hV hu e'] at hm'
        exact absurd hm' hxu
    exact run_none hV (not_def_of_num hV hI hn) htb
  let wf : Nat → Val := fun m =>
    open Classical in
    if h : ∃ x, x ∈ ids i.ops ∧ (build P).num x = m then run P S [] G ((b, k) :: t) h.choose
    else run P S [] G ((b, k) :: t) 0
  have hwf : ∀ x ∈ ids i.ops, (build P).num x ≠ 0 → wf ((build P).num x) = run P S [] G ((b, k) :: t) x := by
    intro x hx h0
    have hex : ∃ x', x' ∈ ids i.ops ∧ (build P).num x' = (build P).num x := ⟨x, hx, rfl⟩
    simp only [wf]
    rw [dif_pos hex]
    exact (hagree x hx _ hex.choose_spec.1 h0 hex.choose_spec.2).symm
  have key2 : ∀ (l : List Opnd) (ks : List KOp), (∀ x ∈ ids l, x ∈ ids i.ops) →
      All2 (KopOK (build P).num (u.map Inst.result)) l ks →
      l.map (Opnd.eval [] (run P S [] G ((b, k) :: t))) = ks.map (kval G wf) ∧
      ∀ m, KOp.num m ∈ ks → ∃ x, (build P).num x = m ∧ m ≠ 0 ∧ Av P (b, k) x ∧
        wf m = run P S [] G ((b, k) :: t) x := by
    intro l ks hl h
    induction h with
    | nil => simp
    | @cons a c l m h1 h2 ih =>
      have hl' : ∀ x ∈ ids l, x ∈ ids i.ops := by
        intro x hx
        refine hl x ?_
        simp only [ids, List.mem_filterMap] at hx ⊢
        obtain ⟨o', ho', e⟩ := hx
        exact ⟨o', by simp [ho'], e⟩
      obtain ⟨ih1, ih2⟩ := ih hl'
      refine ⟨?_, ?_⟩
      · rw [List.map_cons, List.map_cons, ih1]
        congr 1
        cases h1 with
        | lit ws => rfl
        | num x hx =>
          simp only [Opnd.eval, kval]
          rw [hwf x (hl x (by simp [ids])) hx]; rfl
        | raw x hx =>
          simp only [Opnd.eval, kval]
          rw [← hraw x (hl x (by simp [ids])) hx]; rfl
      · intro n hn
        rcases List.mem_cons.1 hn with rfl | hn
        · cases h1 with
          | num x hx =>
            have hxm := hl x (by simp [ids])
            exact ⟨x, rfl, hx, hav x hxm hx, hwf x hxm hx⟩
        · exact ih2 n hn
  obtain ⟨he, hw⟩ := key2 i.ops ks (fun x hx => hx) hk.ops
  refine ⟨wf, ?_, hw⟩
  rw [← hr, run_inst hi ho (by rw [hr]; exact h0) rfl,
    hS.functional i _ _ (functional_of hV hI hC hS hb hi hk.own), he, fn_normal hS, hk.dc]

/-- A value of a class at `q` is one before `q`, if the class came before. -/
theorem transfer {q q' : Pt} {t : List Pt} (ht : Trace P (q :: q' :: t)) (hv : V P B S G q' t)
    {n : Nat} {w : Val} (h : Ev P B S G q (run P S [] G (q :: q' :: t)) n w) (hQ : Q P q n) :
    Ev P B S G q' (run P S [] G (q' :: t)) n w := by
  have hq := head_order hV ht
  obtain ⟨ht', hn⟩ := trace_cons.1 ht
  induction h with
  | @leaf n o hno hn0 hav =>
    by_cases hd : DefAt P o q
    · obtain ⟨i, hdi⟩ := hd
      rcases elem_cases hV hI ht hdi with h | h | ⟨u, w, ks, hu, hk⟩
      · exact (own_not_Q hV hI ⟨i, hdi⟩ ht h.1 h.2 (by rw [hno]; exact hQ)).elim
      · obtain ⟨z, hz, hzav, hzv⟩ := h q' hn
        rw [hzv Val S G t hS ht]
        exact .leaf z (by rw [hz, hno]) hn0 hzav
      · by_cases ho : i.op = "OpPhi"
        · exact (phi_not_Q hV hI hdi ht ho hu hk (by rw [hno]; exact hQ)).elim
        · have hdi' := hdi
          obtain ⟨h0, h1, k, hi, he⟩ := hdi'
          rw [if_neg ho] at he
          have hqe : q = (q.1, k + 1) := Prod.ext rfl he
          rw [hqe] at hn
          have := next_succ hn
          subst this
          rw [hqe] at ht
          obtain ⟨w, hw1, hw2⟩ := node_of hV hI hC hS ht hi h1 h0 ho hu hk hv
          rw [hqe, hw1, hno]
          have hkey := hk.key
          rw [h1, hno] at hkey
          refine .node ⟨i.op, i.ty, normal i.op ks⟩ w hkey ho ?_
          intro m hm
          obtain ⟨x, hx1, hx2, hx3, hx4⟩ := hw2 m (mem_normal.1 hm)
          rw [hx4]
          exact .leaf x hx1 hx2 hx3
    · rw [run_keep hV hq hd]
      exact .leaf o hno hn0 (hav.prev hn hd)
  | @node n K w hK hop hm ih =>
    refine .node K w hK hop ?_
    intro m hmm
    exact ih m hmm (Q_comp hV hI hQ hK hop hmm)

theorem values : ∀ (t : List Pt) (q : Pt), Trace P (q :: t) → V P B S G q t := by
  intro t
  induction t with
  | nil =>
    intro q ht y w h0 hav _
    obtain ⟨d, hm, hd⟩ := hav [] ht
    simp at hm
    subst hm
    obtain ⟨_, _, e, _⟩ := def_has_pred hV ht hd
    cases e
  | cons q' t ih =>
    intro q ht y w h0 hav hev
    have hq := head_order hV ht
    obtain ⟨ht', hn⟩ := trace_cons.1 ht
    have hv := ih q' ht'
    by_cases hd : DefAt P y q
    · obtain ⟨i, hdi⟩ := hd
      rcases elem_cases hV hI ht hdi with h | h | ⟨u, w', ks, hu, hk⟩
      · -- a number of its own
        generalize hn' : (build P).num y = n at hev h
        cases hev with
        | leaf o hno hn0 hoav =>
          by_cases e : o = y
          · rw [e]
          · exfalso
            have hod : ¬ DefAt P o q := by
              rintro ⟨j, hj⟩
              obtain ⟨h10, h11, k, hk1, hke1⟩ := hdi
              obtain ⟨h20, h21, k', hk2, hke2⟩ := hj
              -- both at `q`: the member is not a phi of another class, so its class has `y` before
              have hQ : Q P q n → False := fun hQ =>
                own_not_Q hV hI ⟨i, h10, h11, k, hk1, hke1⟩ ht (by rw [hn']; exact h.1) (by rw [hn']; exact h.2)
                  (by rw [hn']; exact hQ)
              rcases elem_cases hV hI ht ⟨h20, h21, k', hk2, hke2⟩ with h' | h' | ⟨u, w2, ks, hu, hk⟩
              · rw [hno] at h'; exact e (by rw [← h'.2, h.2])
              · exact hQ (hno ▸ Q_of_fwd hV hI h')
              · have := hk.key
                rw [h21, hno, h.1] at this; cases this
            have hQ : Q P q n := by
              have := Q_of_av hV hI (P := P) (q := q) (x := o) (fun q2 hn2 => hoav.prev hn2 hod)
              rwa [hno] at this
            exact own_not_Q hV hI ⟨i, hdi⟩ ht (by rw [hn']; exact h.1) (by rw [hn']; exact h.2)
              (by rw [hn']; exact hQ)
        | node K w hK _ _ => rw [h.1] at hK; cases hK
      · -- a copy
        have hQ := Q_of_fwd hV hI h
        have hev' := transfer hV hI hC hS ht hv hev hQ
        obtain ⟨z, hz, hzav, hzv⟩ := h q' hn
        rw [hzv Val S G t hS ht]
        exact hv z w (by rw [hz]; exact h0) hzav (by rw [hz]; exact hev')
      · have hkey := hk.key
        by_cases ho : i.op = "OpPhi"
        · -- a phi with a key
          have hdi' := hdi
          obtain ⟨h10, h11, k, hi, he⟩ := hdi'
          rw [h11] at hkey
          have hnQ : ¬ Q P q ((build P).num y) := fun hQ => phi_not_Q hV hI hdi ht ho hu hk hQ
          generalize hn' : (build P).num y = n at hev hkey h0
          rw [hn'] at hnQ
          cases hev with
          | node K w hK hop _ =>
            rw [hkey] at hK
            cases hK
            exact absurd ho hop
          | leaf o hno hn0 hoav =>
            by_cases e : o = y
            · rw [e]
            by_cases hod : DefAt P o q
            · obtain ⟨j, hj⟩ := hod
              rcases elem_cases hV hI ht hj with h' | h' | ⟨u2, w2, ks2, hu2, hk2⟩
              · rw [hno, hkey] at h'; cases h'.1
              · exact absurd (hno ▸ Q_of_fwd hV hI h') hnQ
              · have hkey2 := hk2.key
                have hj' := hj
                obtain ⟨h20, h21, k2, hj2, he2⟩ := hj'
                rw [h21, hno, hkey] at hkey2
                simp only [Option.some.injEq, Key.mk.injEq] at hkey2
                obtain ⟨eo, _, ek⟩ := hkey2
                rw [← eo, ho, normal_phi hV hI, normal_phi hV hI] at ek
                rw [ho] at eo
                subst ek
                rw [if_pos ho] at he
                obtain ⟨b, k0⟩ := q
                simp only at he hi hj2 hq
                subst he
                obtain ⟨hp, hlen⟩ := next_zero hn
                obtain ⟨p, kp⟩ := q'
                simp only at hp hlen
                subst hlen
                have hrel := phi_rel_of hV hI hq hq hi hj2 ho eo.symm hk.ops hk2.ops
                obtain ⟨a, ha, ham, hap⟩ := find_label hV hI ((hV.phi_preds b k _ i ht hi ho p).1 hp)
                obtain ⟨a', ha', hr'⟩ := phi_rel_find hV hI hrel p a ha
                rw [run_phi hV hq hi ho h11 rfl ha, run_phi hV hq hj2 eo.symm h21 rfl ha']
                simp only [use_nil hV hI]
                rcases hr'.2 with hr2 | ⟨hr2, hr3⟩
                · rw [hr2]
                · have hav1 : Av P (p, (P.insts p).length) a.1 := by
                    refine av_of_onTrace hV hI hr3 ?_
                    intro t ht
                    exact hV.phi_doms _ _ k t i a ht hp hi ho ham hap
                  have hav2 : Av P (p, (P.insts p).length) a'.1 := by
                    refine av_of_onTrace hV hI (by rw [← hr2]; exact hr3) ?_
                    intro t ht
                    exact hV.phi_doms _ _ k2 t j a' ht hp hj2 eo.symm (List.mem_of_find?_eq_some ha')
                      (by rw [← hr'.1]; exact hap)
                  exact hv a.1 _ hr3 hav1 (.leaf a'.1 hr2.symm hr3 hav2)
            · refine absurd ?_ hnQ
              have := Q_of_av hV hI (P := P) (q := q) (x := o) (fun q2 hn2 => hoav.prev hn2 hod)
              rwa [hno] at this
        · -- another instruction with a key
          have hdi' := hdi
          obtain ⟨h10, h11, k, hi, he⟩ := hdi'
          rw [if_neg ho] at he
          obtain ⟨b, k0⟩ := q
          simp only at he hi hq
          subst he
          have := next_succ hn
          subst this
          obtain ⟨wf, hw1, hw2⟩ := node_of hV hI hC hS ht hi h11 h10 ho hu hk hv
          rw [h11] at hkey
          have hnode : Ev P B S G (b, k) (run P S [] G ((b, k) :: t)) ((build P).num y)
              (run P S [] G ((b, k + 1) :: (b, k) :: t) y) := by
            rw [hw1]
            refine .node ⟨i.op, i.ty, normal i.op ks⟩ wf hkey ho ?_
            intro m hm
            obtain ⟨x, hx1, hx2, hx3, hx4⟩ := hw2 m (mem_normal.1 hm)
            rw [hx4]
            exact .leaf x hx1 hx2 hx3
          generalize hn' : (build P).num y = n at hev hkey h0 hnode hw1
          cases hev with
          | leaf o hno hn0 hoav =>
            by_cases e : o = y
            · rw [e]
            have hod : ¬ DefAt P o (b, k + 1) := by
              rintro ⟨j, _, hj1, k2, hj2, hj3⟩
              by_cases hjo : j.op = "OpPhi"
              · rw [if_pos hjo] at hj3; simp at hj3
              · rw [if_neg hjo] at hj3
                simp only [Nat.add_right_cancel_iff] at hj3
                subst hj3
                simp only at hj2
                rw [hi] at hj2
                have : i = j := by simpa using hj2
                subst this
                exact e (by rw [← hj1, ← h11])
            rw [run_keep hV hq hod]
            exact (hv o _ (by rw [hno]; exact hn0) (hoav.prev hn hod) (by rw [hno]; exact hnode)).symm
          | node K w hK hop hm =>
            rw [hkey] at hK
            simp only [Option.some.injEq] at hK
            subst hK
            rw [hw1]
            congr 1
            apply List.map_congr_left
            intro a ha
            cases a with
            | lit ws => rfl
            | raw x => rfl
            | num m =>
              simp only [kval]
              congr 1
              obtain ⟨x, hx1, hx2, hx3, hx4⟩ := hw2 m (mem_normal.1 ha)
              rw [hx4]
              have hQ : Q P (b, k + 1) m := by
                have := Q_of_av hV hI (P := P) (q := (b, k + 1)) (x := x)
                  (fun q2 hn2 => by rw [next_succ hn2]; exact hx3)
                rwa [hx1] at this
              have := transfer hV hI hC hS ht hv (hm m ha) hQ
              exact hv x _ (by rw [hx1]; exact hx2) hx3 (by rw [hx1]; exact this)
    · rw [run_keep hV hq hd]
      have hQ : Q P q ((build P).num y) := Q_of_av hV hI (fun q2 hn2 => hav.prev hn2 hd)
      exact hv y w h0 (hav.prev hn hd) (transfer hV hI hC hS ht hv hev hQ)

/-- Equal numbers, equal values. -/
theorem equal_values {q : Pt} {t : List Pt} (ht : Trace P (q :: t)) {x y : Id}
    (h0 : (build P).num x ≠ 0) (he : (build P).num x = (build P).num y) (hx : Av P q x) (hy : Av P q y) :
    run P S [] G (q :: t) x = run P S [] G (q :: t) y :=
  values hV hI hC hS t q ht x _ h0 hx (.leaf y he.symm h0 hy)

end

end Verif.Vn
