import Verif.Ssa.Steps

/-
# The rewriter keeps the invariant
-/

set_option linter.unusedSimpArgs false
set_option linter.unusedVariables false

namespace Verif.Ssa

theorem sameArg_some {p : Id} : ∀ {as : List Id} {s0 s : Id}, sameArg p as s0 = some s →
    (∀ a ∈ as, a ≠ 0) → s0 ≠ p → (s0 ≠ 0 → s = s0) ∧ s ≠ p ∧ ∀ a ∈ as, a = s ∨ a = p
  | [], s0, s, h, _, hs => by
    simp only [sameArg, Option.some.injEq] at h
    subst h
    exact ⟨fun _ => rfl, hs, by simp⟩
  | a :: as, s0, s, h, hne, hs => by
    simp only [sameArg] at h
    have hne' : ∀ a ∈ as, a ≠ 0 := fun a ha => hne a (List.mem_cons_of_mem _ ha)
    have ha : a ≠ 0 := hne a (List.mem_cons_self ..)
    split at h
    · rename_i hc
      have ih := sameArg_some h hne' hs
      refine ⟨ih.1, ih.2.1, fun b hb => ?_⟩
      rcases List.mem_cons.1 hb with rfl | hb
      · rcases hc with e | e
        · have : s0 ≠ 0 := fun e' => ha (e.trans e')
          exact .inl (e.trans (ih.1 this).symm)
        · exact .inr e
      · exact ih.2.2 b hb
    · rename_i hc
      split at h
      · cases h
      · rename_i hz
        have hz : s0 = 0 := by simpa using hz
        have ih := sameArg_some h hne' (fun e => hc (.inr e))
        refine ⟨fun h => absurd hz h, ih.2.1, fun b hb => ?_⟩
        rcases List.mem_cons.1 hb with rfl | hb
        · exact .inl (ih.1 ha).symm
        · exact ih.2.2 b hb

section
variable {P : Prog} {fresh : Id} {pos : Block → Option Nat}

theorem keep_clob {p : Id} {r : Id × St} (h : (keep p r).2.clobbered = false) :
    r.2.clobbered = false := by
  unfold keep at h
  split at h <;> exact h

theorem tryRemove_clob {st st' : St} {p x : Id} (h : tryRemove P st p = some (x, st'))
    (hc : st'.clobbered = false) : st.clobbered = false := by
  unfold tryRemove at h
  split at h
  · cases h
  · split at h
    · cases h; exact hc
    · cases h
    · cases h
      have := replaceUsers_clob hc
      exact this

/-- The decision on a candidate whose arguments are all known. -/
theorem settle_ok {st st' : St} {E : Ent} {S : List Id} {p x : Id} {ph : Phi} (hf0 : fresh ≠ 0)
    (h : Inv P fresh st E pos (p :: S)) (hp : st.phis p = some ph) (hfull : Full P ph)
    (hr : (tryRemove P st p).map (keep p) = some (x, st')) (hc : st'.clobbered = false) :
    Inv P fresh st' E pos S ∧ ExtN p st st' ∧ x ≠ 0 ∧ Eqv st' x p := by
  have hp0 : p ≠ 0 := by
    have := (h.phi_ok p ph hp).1
    intro e; subst e
    exact hf0 (Nat.le_zero.1 this)
  unfold tryRemove at hr
  rw [hp] at hr
  simp only at hr
  cases hs : sameArg p ph.args 0 with
  | none =>
    rw [hs] at hr
    simp only [Option.map_some, Option.some.injEq, keep, if_true, Prod.mk.injEq] at hr
    obtain ⟨rfl, rfl⟩ := hr
    obtain ⟨h1, h2, h3⟩ := h.modOpen hp (by simp) (fun ph => { ph with complete := true }) rfl rfl rfl
      (fun i a q ha hne hq ho => h.args_ok p ph i a q hp ha hne hq ho)
    refine ⟨h1.toGen h3 hfull rfl, ?_, hp0, .refl _⟩
    exact h2.trans ⟨fun x ph' _ hx => ⟨ph', hx, Same.refl _ _⟩, fun x ph' hx _ => ⟨ph', hx, rfl⟩, rfl⟩
  | some s =>
    rw [hs] at hr
    obtain ⟨_, hsp, hall⟩ := sameArg_some hs hfull.2 (Ne.symm hp0)
    cases s with
    | zero => cases hr
    | succ s =>
      simp only [Option.map_some, Option.some.injEq] at hr
      rw [keep, if_neg hsp, Prod.mk.injEq] at hr
      obtain ⟨rfl, rfl⟩ := hr
      obtain ⟨h1, h2, h3⟩ := h.toCopy hp hfull (Nat.succ_ne_zero s) hall
      obtain ⟨h4, h5⟩ := replaceUsers_ok hp0 (Nat.succ_ne_zero s) h1 h3 hc
      exact ⟨h4, h2.trans (h5.toN p), Nat.succ_ne_zero s, (h3.mono h5.mono).symm⟩

theorem pushArg_clob {st : St} {p a : Id} (h : (pushArg st p a).clobbered = false) :
    st.clobbered = false := by
  unfold pushArg at h
  simp only at h
  split at h <;> exact h

/-- What a search from the end of a block gives. -/
def Finds (P : Prog) (fresh : Id) (pos : Block → Option Nat) (v : Var)
    (rec : Block → St → Option (Id × St)) : Prop :=
  ∀ b st x st' E S, Inv P fresh st E pos S → st.isSealed b = true → rec b st = some (x, st') →
    st'.clobbered = false →
    ∃ E', Inv P fresh st' E' pos S ∧ (∀ b v x, E b v = some x → E' b v = some x) ∧ Ext st st' ∧
      x ≠ 0 ∧ ∃ y, reaching P E' v (b, (P.insts b).length) = some y ∧ Eqv st' x y

def Clob (rec : Block → St → Option (Id × St)) : Prop :=
  ∀ b st x st', rec b st = some (x, st') → st'.clobbered = false → st.clobbered = false

theorem addArgs_clob {rec : Block → St → Option (Id × St)} (hrec : Clob rec) {p : Id} :
    ∀ {bs : List Block} {st st' : St}, addArgs rec p bs st = some st' → st'.clobbered = false →
    st.clobbered = false
  | [], st, st', h, hc => by cases h; exact hc
  | b :: bs, st, st', h, hc => by
    simp only [addArgs] at h
    split at h
    · split at h
      · cases h
      · rename_i a st1 hr
        exact hrec _ _ _ _ hr (pushArg_clob (addArgs_clob hrec h hc))
    · exact pushArg_clob (addArgs_clob hrec h hc)

theorem pushArg_ok {st : St} {E : Ent} {S : List Id} {p a : Id} {ph : Phi} {v : Var}
    (h : Inv P fresh st E pos S) (hp : st.phis p = some ph) (hS : p ∈ S) (hv : ph.var = v)
    (ha : a ≠ 0 → ∀ q, (P.preds ph.bb)[ph.args.length]? = some q → q ∈ P.order →
      ∃ y, reaching P E v (q, (P.insts q).length) = some y ∧ Eqv st a y) :
    Inv P fresh (pushArg st p a) E pos S ∧ ExtN p st (pushArg st p a) ∧
    ∃ ph', (pushArg st p a).phis p = some ph' ∧ ph'.var = v ∧ ph'.bb = ph.bb ∧
      ph'.args.length = ph.args.length + 1 := by
  obtain ⟨h1, h2, h3⟩ := h.modOpen hp hS (fun ph => { ph with args := ph.args ++ [a] }) rfl rfl rfl
    (by
      intro i b q hb hne hq ho
      simp only [List.getElem?_append] at hb
      split at hb
      · exact h.args_ok p ph i b q hp hb hne hq ho
      · rename_i hi
        have hi0 : i - ph.args.length = 0 := by
          cases hd : i - ph.args.length with
          | zero => rfl
          | succ n => rw [hd] at hb; simp at hb
        rw [hi0] at hb
        simp at hb
        subst hb
        have : i = ph.args.length := by omega
        subst this
        rw [hv]
        exact ha hne q hq ho)
  unfold pushArg
  simp only
  split
  · refine ⟨h1.addUser a p, h2.trans ((ext_addUser _ a p).toN p), ?_⟩
    obtain ⟨ph', e1, e2⟩ := (ext_addUser (modPhi st p fun ph => { ph with args := ph.args ++ [a] }) a p).phis
      p _ h3
    exact ⟨ph', e1, e2.var.trans hv, e2.bb, by rw [e2.len]; simp⟩
  · exact ⟨h1, h2, _, h3, hv, rfl, by simp⟩

theorem addArgs_ok {rec : Block → St → Option (Id × St)} {v : Var} (hrec : Finds P fresh pos v rec)
    (hcl : Clob rec) {S : List Id} {p : Id} : ∀ {bs done : List Block} {st st' : St} {E : Ent} {ph : Phi},
    Inv P fresh st E pos (p :: S) → st.phis p = some ph → ph.var = v →
    P.preds ph.bb = done ++ bs → ph.args.length = done.length →
    addArgs rec p bs st = some st' → st'.clobbered = false →
    ∃ E' ph', Inv P fresh st' E' pos (p :: S) ∧ (∀ b v x, E b v = some x → E' b v = some x) ∧
      ExtN p st st' ∧ st'.phis p = some ph' ∧ ph'.var = v ∧ ph'.bb = ph.bb ∧
      ph'.args.length = (P.preds ph.bb).length
  | [], done, st, st', E, ph, h, hp, hv, hpr, hlen, hr, hc => by
    cases hr
    exact ⟨E, ph, h, fun _ _ _ e => e, ⟨fun x ph' _ hx => ⟨ph', hx, Same.refl _ _⟩,
      fun x ph' hx _ => ⟨ph', hx, rfl⟩, rfl⟩, hp, hv, rfl, by rw [hlen, hpr]; simp⟩
  | b :: bs, done, st, st', E, ph, h, hp, hv, hpr, hlen, hr, hc => by
    have hget : (P.preds ph.bb)[ph.args.length]? = some b := by
      rw [hpr, hlen]; simp
    simp only [addArgs] at hr
    split at hr
    · rename_i hs
      split at hr
      · cases hr
      · rename_i a st1 ha
        have hc1 : st1.clobbered = false := pushArg_clob (addArgs_clob hcl hr hc)
        obtain ⟨E1, i1, e1, x1, hne, y, hy, hay⟩ := hrec b st a st1 E _ h hs ha hc1
        obtain ⟨ph1, hp1, s1⟩ := x1.phis p ph hp
        obtain ⟨i2, x2, ph2, hp2, hv2, hb2, hl2⟩ := pushArg_ok (a := a) i1 hp1 (by simp)
          (s1.var.trans hv) (by
            intro _ q hq ho
            rw [s1.bb, s1.len, hget] at hq
            cases hq
            exact ⟨y, hy, hay⟩)
        obtain ⟨E3, ph3, i3, e3, x3, hp3, hv3, hb3, hl3⟩ := addArgs_ok hrec hcl (done := done ++ [b])
          i2 hp2 hv2 (by rw [hb2, s1.bb, hpr]; simp) (by rw [hl2, s1.len, hlen]; simp) hr hc
        refine ⟨E3, ph3, i3, fun b v x hx => e3 _ _ _ (e1 _ _ _ hx),
          ((x1.toN p).trans x2).trans x3, hp3, hv3, ?_, ?_⟩
        · rw [hb3, hb2, s1.bb]
        · rw [hl3, hb2, s1.bb]
    · obtain ⟨i2, x2, ph2, hp2, hv2, hb2, hl2⟩ := pushArg_ok (a := 0) h hp (by simp) hv
        (fun e => absurd rfl e)
      obtain ⟨E3, ph3, i3, e3, x3, hp3, hv3, hb3, hl3⟩ := addArgs_ok hrec hcl (done := done ++ [b])
        i2 hp2 hv2 (by rw [hb2, hpr]; simp) (by rw [hl2, hlen]; simp) hr hc
      exact ⟨E3, ph3, i3, e3, x2.trans x3, hp3, hv3, by rw [hb3, hb2], by rw [hl3, hb2]⟩

theorem addOperands_clob {rec : Block → St → Option (Id × St)} (hrec : Clob rec) {p x : Id}
    {bs : List Block} {st st' : St} (h : addOperands P rec p bs st = some (x, st'))
    (hc : st'.clobbered = false) : st.clobbered = false := by
  unfold addOperands at h
  split at h
  · cases h
  · rename_i st1 ha
    apply addArgs_clob hrec ha
    split at h
    · cases h
    · split at h
      · cases h; exact hc
      · simp only [Option.map_eq_some_iff] at h
        obtain ⟨r, h1, h2⟩ := h
        have : (keep p r).2.clobbered = false := by rw [h2]; exact hc
        exact tryRemove_clob (x := r.1) (st' := r.2) h1 (keep_clob this)

theorem addOperands_ok {rec : Block → St → Option (Id × St)} {v : Var} (hf0 : fresh ≠ 0)
    (hrec : Finds P fresh pos v rec) (hcl : Clob rec) {S : List Id} {p x : Id} {st st' : St} {E : Ent}
    {ph : Phi} (h : Inv P fresh st E pos (p :: S)) (hp : st.phis p = some ph) (hv : ph.var = v)
    (hargs : ph.args = []) (hr : addOperands P rec p (P.preds ph.bb) st = some (x, st'))
    (hc : st'.clobbered = false) :
    ∃ E', Inv P fresh st' E' pos S ∧ (∀ b v x, E b v = some x → E' b v = some x) ∧
      ExtN p st st' ∧ x ≠ 0 ∧ Eqv st' x p := by
  have hp0 : p ≠ 0 := by
    have := (h.phi_ok p ph hp).1
    intro e; subst e
    exact hf0 (Nat.le_zero.1 this)
  unfold addOperands at hr
  split at hr
  · cases hr
  · rename_i st1 ha
    have hc1 : st1.clobbered = false := by
      split at hr
      · cases hr
      · split at hr
        · cases hr; exact hc
        · simp only [Option.map_eq_some_iff] at hr
          obtain ⟨r, h1, h2⟩ := hr
          have : (keep p r).2.clobbered = false := by rw [h2]; exact hc
          exact tryRemove_clob (x := r.1) (st' := r.2) h1 (keep_clob this)
    obtain ⟨E1, ph1, i1, e1, x1, hp1, hv1, hb1, hl1⟩ := addArgs_ok hrec hcl (done := [])
      h hp hv (by simp) (by simp [hargs]) ha hc1
    rw [hp1] at hr
    simp only at hr
    split at hr
    · cases hr
      obtain ⟨h1, h2, h3⟩ := i1.modOpen hp1 (by simp) (fun ph => { ph with complete := false }) rfl rfl rfl
        (fun i a q ha hne hq ho => i1.args_ok p ph1 i a q hp1 ha hne hq ho)
      refine ⟨E1, h1.toQueue h3 (by simp only; rw [hl1, hb1]), e1, ?_, hp0, .refl _⟩
      exact (x1.trans h2).trans
        ⟨fun x ph' _ hx => ⟨ph', hx, Same.refl _ _⟩, fun x ph' hx _ => ⟨ph', hx, rfl⟩, rfl⟩
    · rename_i hz
      have hfull : Full P ph1 := by
        refine ⟨by rw [hl1, hb1], fun a ha e => hz ?_⟩
        subst e
        simpa using ha
      obtain ⟨h1, h2, h3, h4⟩ := settle_ok hf0 i1 hp1 hfull hr hc
      exact ⟨E1, h1, e1, x1.trans h2, h3, h4⟩

theorem writeVar_clob {st : St} {v : Var} {b : Block} {x : Id} :
    (writeVar st v b x).clobbered = st.clobbered := rfl

theorem reach_clob {v : Var} : ∀ (n : Nat), Clob (reach P v n)
  | 0, b, st, x, st', h, hc => by cases h
  | n + 1, b, st, x, st', h, hc => by
    simp only [reach] at h
    split at h
    · cases h; exact hc
    · split at h
      · cases h; exact hc
      · simp only [Option.map_eq_some_iff] at h
        obtain ⟨r, h1, h2⟩ := h
        simp only [finish, Prod.mk.injEq] at h2
        have : r.2.clobbered = false := by rw [← h2.2] at hc; exact hc
        exact reach_clob n _ _ _ _ h1 this
      · simp only [Option.map_eq_some_iff] at h
        obtain ⟨r, h1, h2⟩ := h
        simp only [finish, Prod.mk.injEq] at h2
        have : r.2.clobbered = false := by rw [← h2.2] at hc; exact hc
        have h3 : (create v b st).clobbered = false :=
          addOperands_clob (reach_clob n) (x := r.1) (st' := r.2) h1 this
        exact h3

theorem reaching_of_entry {E : Ent} {v : Var} {b : Block} {k : Nat} {z : Id}
    (hl : lastStore v ((P.insts b).take k) = none) (hz : E b v = some z) :
    reaching P E v (b, k) = some z := by
  simp only [reaching]
  rw [hl]; exact hz

/-- Blocks with one predecessor come after it. -/
def PosOK (P : Prog) (pos : Block → Option Nat) : Prop :=
  ∀ b k p, pos b = some k → P.preds b = [p] → pos p = some (P.insts p).length ∧ p ∈ P.order

/-- `GetReachingDef` finds the value that reaches. -/
theorem reach_ok (hV : Valid P fresh) (hf0 : fresh ≠ 0) (hpos : PosOK P pos) {v : Var} :
    ∀ (n : Nat) (b : Block) (k : Nat) (st : St) (x : Id) (st' : St) (E : Ent) (S : List Id),
    Inv P fresh st E pos S → pos b = some k → b ∈ P.order → reach P v n b st = some (x, st') →
    st'.clobbered = false →
    ∃ E', Inv P fresh st' E' pos S ∧ (∀ b v x, E b v = some x → E' b v = some x) ∧ Ext st st' ∧
      x ≠ 0 ∧ ∃ y, reaching P E' v (b, k) = some y ∧ Eqv st' x y
  | 0, _, _, _, _, _, _, _, _, _, _, h, _ => by cases h
  | n + 1, b, k, st, x, st', E, S, h, hk, hb, hr, hc => by
    have hrec : Finds P fresh pos v (reach P v n) := by
      intro b' st x st' E S hi hs hr hc
      obtain ⟨h1, h2⟩ := hi.isSealed b' hs
      exact reach_ok hV hf0 hpos n b' _ st x st' E S hi h1 h2 hr hc
    simp only [reach] at hr
    split at hr
    · rename_i hd
      cases hr
      obtain ⟨y, h1, h2⟩ := h.defs_ok b k v hk hd
      exact ⟨E, h, fun _ _ _ e => e, Ext.refl _, hd, y, h1, h2⟩
    · rename_i hd
      have hd : st.defs b v = 0 := by simpa using hd
      have hl : lastStore v ((P.insts b).take k) = none := by
        cases hl : lastStore v ((P.insts b).take k) with
        | none => rfl
        | some y => exact absurd hd (h.defs_store b k v hk (by rw [hl]; simp))
      have hEn : E b v = none := by
        cases he : E b v with
        | none => rfl
        | some z => exact absurd hd (h.ent b v z he).2.2.1
      split at hr
      · rename_i hpr
        simp only [finish, if_true, Option.some.injEq, Prod.mk.injEq] at hr
        obtain ⟨rfl, rfl⟩ := hr
        obtain ⟨E', i1, e1, z, hz, hzx⟩ := h.writeEntry hk hb hl (hV.undef_id v).1
          (.inl ⟨hpr, rfl⟩) (by intro z hz; rw [hEn] at hz; cases hz)
        exact ⟨E', i1, e1, ext_writeVar _ _ _ _, (hV.undef_id v).1, z, reaching_of_entry hl hz, hzx.symm⟩
      · rename_i p hpr
        simp only [Option.map_eq_some_iff] at hr
        obtain ⟨⟨x1, st1⟩, h1, h2⟩ := hr
        obtain ⟨hpp, hpo⟩ := hpos b k p hk hpr
        have hc1 : st1.clobbered = false := by
          simp only [finish, Prod.mk.injEq] at h2
          rw [← h2.2] at hc
          exact hc
        obtain ⟨E1, i1, e1, x1', hne, y, hy, hxy⟩ := reach_ok hV hf0 hpos n p _ st x1 st1 E S h hpp hpo h1 hc1
        simp only [finish, if_neg hne, Prod.mk.injEq] at h2
        obtain ⟨rfl, rfl⟩ := h2
        obtain ⟨E', i2, e2, z, hz, hzx⟩ := i1.writeEntry hk hb hl hne
          (.inr (.inl ⟨p, y, hpr, hy, hxy⟩)) (by
            intro z hz
            rcases (i1.ent b v z hz).2.2.2 with ⟨h3, _⟩ | ⟨p', y', h3, h4, h5⟩ | ⟨p', ph', h3, h4, _⟩
            · rw [hpr] at h3; cases h3
            · rw [hpr] at h3; cases h3
              rw [hy] at h4; cases h4
              exact h5.trans hxy.symm
            · have := (i1.phi_ok p' ph' h3).2.2.2
              rw [h4, hpr] at this
              simp at this)
        exact ⟨E', i2, fun b v x hx => e2 _ _ _ (e1 _ _ _ hx), x1'.trans (ext_writeVar _ _ _ _), hne,
          z, reaching_of_entry hl hz, hzx.symm⟩
      · rename_i p q ps hpr
        simp only [Option.map_eq_some_iff] at hr
        obtain ⟨⟨x1, st1⟩, h1, h2⟩ := hr
        have hc1 : st1.clobbered = false := by
          simp only [finish, Prod.mk.injEq] at h2
          rw [← h2.2] at hc
          exact hc
        have hnone := h.phis_next
        obtain ⟨i0, x0⟩ := h.newPhi (v := v) hb (by rw [hpr]; simp)
        have hnp : (newPhi v b st).phis st.next = some ⟨v, b, [], 0, false, []⟩ := by simp [newPhi]
        obtain ⟨E1, i1, e1, z1, hz1, hzx1⟩ := i0.writeEntry (v := v) (x := st.next) hk hb hl
          (fun e => hf0 (Nat.le_zero.1 (e ▸ h.le_next)))
          (.inr (.inr ⟨st.next, _, hnp, rfl, rfl, .refl _⟩))
          (by intro z hz; rw [hEn] at hz; cases hz)
        have x01 : Ext st (create v b st) := x0.trans (ext_writeVar _ _ _ _)
        obtain ⟨ph0, hp0, s0⟩ := (ext_writeVar (newPhi v b st) v b st.next).phis _ _ hnp
        have ha0 : ph0.args = [] := List.length_eq_zero_iff.1 (by rw [s0.len]; rfl)
        have hb0 : ph0.bb = b := s0.bb
        obtain ⟨E2, i2, e2, x2, hne, hxe⟩ := addOperands_ok hf0 hrec (reach_clob n) (p := st.next)
          (st := create v b st) i1 hp0 s0.var ha0
          (by rw [hb0, hpr]; exact h1) hc1
        simp only [finish, if_neg hne, Prod.mk.injEq] at h2
        obtain ⟨rfl, rfl⟩ := h2
        have hE2 := e2 _ _ _ hz1
        have hzx2 : Eqv st1 z1 x1 := (hzx1.mono x2.mono).trans hxe.symm
        have hent2 := (i2.ent b v z1 hE2).2.2.2
        obtain ⟨E', i3, e3, z, hz, hzx⟩ := i2.writeEntry (v := v) hk hb hl hne
          (by
            rcases hent2 with ⟨h3, _⟩ | ⟨p', y', h3, h4, h5⟩ | ⟨p', ph', h3, h4, h5, h6⟩
            · rw [hpr] at h3; cases h3
            · rw [hpr] at h3; cases h3
            · exact .inr (.inr ⟨p', ph', h3, h4, h5, hzx2.symm.trans h6⟩))
          (by
            intro z hz
            rw [hE2] at hz; cases hz
            exact hzx2)
        exact ⟨E', i3, fun b v x hx => e3 _ _ _ (e2 _ _ _ (e1 _ _ _ hx)),
          (x2.toExt x01 hnone).trans (ext_writeVar _ _ _ _), hne, z, reaching_of_entry hl hz, hzx.symm⟩

end

end Verif.Ssa
