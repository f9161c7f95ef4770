import Verif.Ssa.Cert

/-
# The invariant of the rewriter

`E` is the value chosen for a variable at the entry of a block; equations hold up to
`Eqv`, "one is a removed candidate that copies the other".
-/

set_option linter.unusedSimpArgs false
set_option linter.unusedVariables false

namespace Verif.Ssa

abbrev Ent := Block → Var → Option Id

inductive Eqv (st : St) : Id → Id → Prop
  | refl (x) : Eqv st x x
  | copy {x ph} : st.phis x = some ph → ph.copyOf ≠ 0 → Eqv st x ph.copyOf
  | symm {x y} : Eqv st x y → Eqv st y x
  | trans {x y z} : Eqv st x y → Eqv st y z → Eqv st x z

/-- Copies stay. -/
def Mono (st st' : St) : Prop :=
  ∀ p ph, st.phis p = some ph → ph.copyOf ≠ 0 → ∃ ph', st'.phis p = some ph' ∧ ph'.copyOf = ph.copyOf

theorem Eqv.mono {st st' : St} (h : Mono st st') {x y : Id} (hxy : Eqv st x y) : Eqv st' x y := by
  induction hxy with
  | refl => exact .refl _
  | copy hp hc =>
    obtain ⟨ph', h1, h2⟩ := h _ _ hp hc
    have := Eqv.copy h1 (by rw [h2]; exact hc)
    rwa [h2] at this
  | symm _ ih => exact ih.symm
  | trans _ _ ih1 ih2 => exact ih1.trans ih2

/-- A candidate before and after replacements. -/
structure Same (st' : St) (ph ph' : Phi) : Prop where
  var : ph'.var = ph.var
  bb : ph'.bb = ph.bb
  copyOf : ph'.copyOf = ph.copyOf
  complete : ph'.complete = ph.complete
  len : ph'.args.length = ph.args.length
  args : ∀ (i : Nat) (a a' : Id), ph.args[i]? = some a → ph'.args[i]? = some a' → (a = 0 ↔ a' = 0) ∧ Eqv st' a a'

theorem Same.refl (st' : St) (ph : Phi) : Same st' ph ph :=
  ⟨rfl, rfl, rfl, rfl, rfl, fun i a a' h h' => by
    rw [h] at h'; cases h'; exact ⟨Iff.rfl, .refl _⟩⟩

/-- All candidates stay, up to replacements. -/
structure Ext (st st' : St) : Prop where
  phis : ∀ p ph, st.phis p = some ph → ∃ ph', st'.phis p = some ph' ∧ Same st' ph ph'
  isSealed : st'.isSealed = st.isSealed

theorem Ext.mono {st st' : St} (h : Ext st st') : Mono st st' := fun p ph hp hc => by
  obtain ⟨ph', h1, h2⟩ := h.phis p ph hp
  exact ⟨ph', h1, h2.copyOf⟩

theorem Ext.refl (st : St) : Ext st st := ⟨fun p ph h => ⟨ph, h, Same.refl _ _⟩, rfl⟩

theorem Same.trans {st1 st2 : St} (hm : Mono st1 st2) {a b c : Phi} (h1 : Same st1 a b)
    (h2 : Same st2 b c) : Same st2 a c where
  var := h2.var.trans h1.var
  bb := h2.bb.trans h1.bb
  copyOf := h2.copyOf.trans h1.copyOf
  complete := h2.complete.trans h1.complete
  len := h2.len.trans h1.len
  args i x z hx hz := by
    have hi : i < b.args.length := by
      have := (List.getElem?_eq_some_iff.1 hx).1
      have := h1.len
      omega
    obtain ⟨y, hy⟩ : ∃ y, b.args[i]? = some y := ⟨_, List.getElem?_eq_getElem hi⟩
    have e1 := h1.args i x y hx hy
    have e2 := h2.args i y z hy hz
    exact ⟨e1.1.trans e2.1, (e1.2.mono hm).trans e2.2⟩

theorem Ext.trans {a b c : St} (h1 : Ext a b) (h2 : Ext b c) : Ext a c := by
  refine ⟨fun p ph hp => ?_, h2.isSealed.trans h1.isSealed⟩
  obtain ⟨ph1, hp1, s1⟩ := h1.phis p ph hp
  obtain ⟨ph2, hp2, s2⟩ := h2.phis p ph1 hp1
  exact ⟨ph2, hp2, s1.trans h2.mono s2⟩

/-- All predecessors have a value. -/
def Full (P : Prog) (ph : Phi) : Prop :=
  ph.args.length = (P.preds ph.bb).length ∧ ∀ a ∈ ph.args, a ≠ 0

/-- The equation of the value of `v` at the entry of `b`. -/
def EntOK (P : Prog) (st : St) (E : Ent) (b : Block) (v : Var) (x : Id) : Prop :=
  (P.preds b = [] ∧ x = P.undef v) ∨
  (∃ p y, P.preds b = [p] ∧ reaching P E v (p, (P.insts p).length) = some y ∧ Eqv st x y) ∨
  (∃ p ph, st.phis p = some ph ∧ ph.bb = b ∧ ph.var = v ∧ Eqv st x p)

structure Inv (P : Prog) (fresh : Id) (st : St) (E : Ent) (pos : Block → Option Nat) (S : List Id) :
    Prop where
  phi_ok : ∀ p ph, st.phis p = some ph → fresh ≤ p ∧ p < st.next ∧ ph.bb ∈ P.order ∧
    2 ≤ (P.preds ph.bb).length
  le_next : fresh ≤ st.next
  ent : ∀ b v x, E b v = some x → x ≠ 0 ∧ b ∈ P.order ∧ st.defs b v ≠ 0 ∧ EntOK P st E b v x
  defs_none : ∀ b v, pos b = none → st.defs b v = 0
  defs_ok : ∀ b k v, pos b = some k → st.defs b v ≠ 0 →
    ∃ y, reaching P E v (b, k) = some y ∧ Eqv st (st.defs b v) y
  defs_store : ∀ b k v, pos b = some k → lastStore v ((P.insts b).take k) ≠ none → st.defs b v ≠ 0
  args_ok : ∀ (p : Id) (ph : Phi) (i : Nat) (a : Id) (q : Block), st.phis p = some ph → ph.args[i]? = some a → a ≠ 0 →
    (P.preds ph.bb)[i]? = some q → q ∈ P.order →
    ∃ y, reaching P E ph.var (q, (P.insts q).length) = some y ∧ Eqv st a y
  copy_ok : ∀ p ph, st.phis p = some ph → ph.copyOf ≠ 0 → ∀ a ∈ ph.args, Eqv st a p
  status : ∀ p ph, st.phis p = some ph → p ∈ S ∨
    (p ∈ st.queue ∧ ph.args.length = (P.preds ph.bb).length) ∨
    Full P ph ∧ (ph.copyOf ≠ 0 ∨ p ∈ st.toGen)
  open_ok : ∀ p, p ∈ S ∨ p ∈ st.queue → ∃ ph, st.phis p = some ph ∧ ph.copyOf = 0
  gen_ok : ∀ p ∈ st.toGen, ∃ ph, st.phis p = some ph ∧ ph.copyOf = 0 ∧ ph.complete = true ∧ Full P ph
  nodup : (S ++ (st.queue ++ st.toGen)).Nodup
  isSealed : ∀ b, st.isSealed b = true → pos b = some (P.insts b).length ∧ b ∈ P.order
  loads_ok : ∀ e ∈ st.loads, ∃ (b : Block) (k : Nat) (v : Var) (y : Id), b ∈ P.order ∧
    (P.insts b)[k]? = some (Inst.load e.1 v) ∧ reaching P E v (b, k) = some y ∧ Eqv st e.2 y
  loads_all : ∀ (b : Block) (k j : Nat) (r : Id) (v : Var), pos b = some k → j < k →
    (P.insts b)[j]? = some (Inst.load r v) → ∃ x, (r, x) ∈ st.loads

theorem reaching_mono {P : Prog} {E E' : Ent} (h : ∀ b v x, E b v = some x → E' b v = some x)
    {v : Var} {q : Pt} {y : Id} (hr : reaching P E v q = some y) : reaching P E' v q = some y := by
  unfold reaching at hr ⊢
  cases hl : lastStore v ((P.insts q.1).take q.2) with
  | none => rw [hl] at hr; exact h _ _ _ hr
  | some x => rw [hl] at hr; exact hr

theorem EntOK.mono {P : Prog} {st st' : St} {E E' : Ent} (hE : ∀ b v x, E b v = some x → E' b v = some x)
    (hM : Ext st st') {b : Block} {v : Var} {x : Id} (h : EntOK P st E b v x) :
    EntOK P st' E' b v x := by
  rcases h with h | ⟨p, y, h1, h2, h3⟩ | ⟨p, ph, h1, h2, h3, h4⟩
  · exact .inl h
  · exact .inr (.inl ⟨p, y, h1, reaching_mono hE h2, h3.mono hM.mono⟩)
  · obtain ⟨ph', e1, e2⟩ := hM.phis p ph h1
    exact .inr (.inr ⟨p, ph', e1, e2.bb.trans h2, e2.var.trans h3, h4.mono hM.mono⟩)

theorem same_full {P : Prog} {st' : St} {ph ph' : Phi} (h : Same st' ph ph') (hf : Full P ph) :
    Full P ph' := by
  refine ⟨by rw [h.len, h.bb]; exact hf.1, fun a' ha' e => ?_⟩
  obtain ⟨i, hi⟩ := List.getElem?_of_mem ha'
  have hl : i < ph.args.length := by
    have := (List.getElem?_eq_some_iff.1 hi).1
    have := h.len
    omega
  have := h.args i _ a' (List.getElem?_eq_getElem hl) hi
  exact hf.2 _ (List.getElem_mem hl) (this.1.2 e)

/-- Replacements, and notes of users, keep the invariant. -/
theorem Inv.transfer {P : Prog} {fresh : Id} {st st' : St} {E : Ent} {pos : Block → Option Nat} {S : List Id}
    (h : Inv P fresh st E pos S) (hx : Ext st st')
    (hback : ∀ p ph', st'.phis p = some ph' → ∃ ph, st.phis p = some ph)
    (hdefs : ∀ b v, (st.defs b v = 0 ↔ st'.defs b v = 0) ∧ Eqv st' (st.defs b v) (st'.defs b v))
    (hloads : ∀ e' ∈ st'.loads, ∃ x, (e'.1, x) ∈ st.loads ∧ Eqv st' x e'.2)
    (hkeys : ∀ r x, (r, x) ∈ st.loads → ∃ x', (r, x') ∈ st'.loads)
    (hq : st'.queue = st.queue) (hg : st'.toGen = st.toGen)
    (hn : st'.next = st.next) : Inv P fresh st' E pos S := by
  have hm := hx.mono
  have hb : ∀ p ph', st'.phis p = some ph' → ∃ ph, st.phis p = some ph ∧ Same st' ph ph' := by
    intro p ph' hp'
    obtain ⟨ph, hp⟩ := hback p ph' hp'
    obtain ⟨ph2, h1, h2⟩ := hx.phis p ph hp
    rw [hp'] at h1; cases h1
    exact ⟨ph, hp, h2⟩
  constructor
  · intro p ph' hp'
    obtain ⟨ph, hp, hs⟩ := hb p ph' hp'
    have := h.phi_ok p ph hp
    rw [hs.bb, hn]; exact this
  · rw [hn]; exact h.le_next
  · intro b v x hE
    have := h.ent b v x hE
    exact ⟨this.1, this.2.1, fun e => this.2.2.1 ((hdefs b v).1.2 e),
      this.2.2.2.mono (fun _ _ _ e => e) hx⟩
  · intro b v hp
    exact (hdefs b v).1.1 (h.defs_none b v hp)
  · intro b k v hp hd
    obtain ⟨y, h1, h2⟩ := h.defs_ok b k v hp (fun e => hd ((hdefs b v).1.1 e))
    exact ⟨y, h1, (hdefs b v).2.symm.trans (h2.mono hm)⟩
  · intro b k v hp hl e
    exact h.defs_store b k v hp hl ((hdefs b v).1.2 e)
  · intro p ph' i a' q hp' ha' hne hq' ho
    obtain ⟨ph, hp, hs⟩ := hb p ph' hp'
    have hl : i < ph.args.length := by
      have := (List.getElem?_eq_some_iff.1 ha').1
      have := hs.len
      omega
    have he := hs.args i _ a' (List.getElem?_eq_getElem hl) ha'
    obtain ⟨y, h1, h2⟩ := h.args_ok p ph i _ q hp (List.getElem?_eq_getElem hl)
      (fun e => hne (he.1.1 e)) (by rw [← hs.bb]; exact hq') ho
    exact ⟨y, by rw [hs.var]; exact h1, he.2.symm.trans (h2.mono hm)⟩
  · intro p ph' hp' hc a' ha'
    obtain ⟨ph, hp, hs⟩ := hb p ph' hp'
    obtain ⟨i, hi⟩ := List.getElem?_of_mem ha'
    have hl : i < ph.args.length := by
      have := (List.getElem?_eq_some_iff.1 hi).1
      have := hs.len
      omega
    have he := hs.args i _ a' (List.getElem?_eq_getElem hl) hi
    have := h.copy_ok p ph hp (by rw [← hs.copyOf]; exact hc) _ (List.getElem_mem hl)
    exact he.2.symm.trans (this.mono hm)
  · intro p ph' hp'
    obtain ⟨ph, hp, hs⟩ := hb p ph' hp'
    rw [hq, hg, hs.len, hs.bb, hs.copyOf]
    rcases h.status p ph hp with h1 | h1 | h1
    · exact .inl h1
    · exact .inr (.inl h1)
    · exact .inr (.inr ⟨same_full hs h1.1, h1.2⟩)
  · intro p hp
    rw [hq] at hp
    obtain ⟨ph, h1, h2⟩ := h.open_ok p hp
    obtain ⟨ph', h3, h4⟩ := hx.phis p ph h1
    exact ⟨ph', h3, by rw [h4.copyOf]; exact h2⟩
  · intro p hp
    rw [hg] at hp
    obtain ⟨ph, h1, h2, h5, h6⟩ := h.gen_ok p hp
    obtain ⟨ph', h3, h4⟩ := hx.phis p ph h1
    exact ⟨ph', h3, by rw [h4.copyOf]; exact h2, by rw [h4.complete]; exact h5, same_full h4 h6⟩
  · rw [hq, hg]; exact h.nodup
  · intro b hb'
    rw [hx.isSealed] at hb'
    exact h.isSealed b hb'
  · intro e' he'
    obtain ⟨x, h1, h2⟩ := hloads e' he'
    obtain ⟨b, k, v, y, h3, h4, h5, h6⟩ := h.loads_ok _ h1
    exact ⟨b, k, v, y, h3, h4, h5, h2.symm.trans (h6.mono hm)⟩
  · intro b k j r v h1 h2 h3
    obtain ⟨x, hx⟩ := h.loads_all b k j r v h1 h2 h3
    exact hkeys r x hx

/-! ## Single updates -/

theorem modPhi_phis (st : St) (p : Id) (f : Phi → Phi) (x : Id) :
    (modPhi st p f).phis x = if x = p then (st.phis x).map f else st.phis x := rfl

theorem ext_addUser (st : St) (p u : Id) : Ext st (addUser st p u) := by
  refine ⟨fun x ph hx => ?_, rfl⟩
  simp only [addUser, modPhi_phis]
  by_cases h : x = p
  · simp only [h, if_true]
    rw [← h, hx]
    refine ⟨_, rfl, rfl, rfl, rfl, rfl, rfl, fun i a a' e e' => ?_⟩
    rw [e] at e'; cases e'; exact ⟨Iff.rfl, .refl _⟩
  · simp only [h, if_false]
    exact ⟨ph, hx, Same.refl _ _⟩

theorem ext_writeVar (st : St) (v : Var) (b : Block) (x : Id) : Ext st (writeVar st v b x) := by
  exact ⟨(ext_addUser (setDef st v b x) x b).phis, rfl⟩

theorem mono_note (st : St) (c : Bool) : Mono st (note st c) := fun _ ph h _ => ⟨ph, h, rfl⟩

theorem ext_note {st st' : St} (h : Ext st st') (c : Bool) : Ext st (note st' c) := by
  refine ⟨fun x ph hx => ?_, h.isSealed⟩
  obtain ⟨ph', h1, h2⟩ := h.phis x ph hx
  exact ⟨ph', h1, h2.var, h2.bb, h2.copyOf, h2.complete, h2.len, fun i a a' ha ha' =>
    ⟨(h2.args i a a' ha ha').1, (h2.args i a a' ha ha').2.mono (mono_note _ _)⟩⟩

theorem phis_modPhi_some {st : St} {p : Id} {f : Phi → Phi} {x : Id} {ph' : Phi}
    (h : (modPhi st p f).phis x = some ph') : ∃ ph, st.phis x = some ph := by
  rw [modPhi_phis] at h
  split at h
  · cases hx : st.phis x with
    | none => rw [hx] at h; cases h
    | some ph => exact ⟨ph, rfl⟩
  · exact ⟨ph', h⟩

section
variable {P : Prog} {fresh : Id} {st : St} {E : Ent} {pos : Block → Option Nat} {S : List Id}

theorem Inv.addUser (h : Inv P fresh st E pos S) (p u : Id) :
    Inv P fresh (addUser st p u) E pos S :=
  h.transfer (ext_addUser st p u) (fun _ _ hp => phis_modPhi_some hp)
    (fun b v => ⟨Iff.rfl, .refl _⟩) (fun e he => ⟨e.2, he, .refl _⟩) (fun r x h => ⟨x, h⟩)
    rfl rfl rfl

theorem subst_eqv {p q : Id} (hp : p ≠ 0) (hq : q ≠ 0) (he : Eqv st p q) (x : Id) :
    (x = 0 ↔ subst p q x = 0) ∧ Eqv st x (subst p q x) := by
  unfold subst
  by_cases h : x = p
  · subst h
    simp [hp, hq, he]
  · simp [h, Eqv.refl]

/-- One user of a removed candidate. -/
theorem replaceUser_ok (h : Inv P fresh st E pos S) {p v q u : Id} (hp : p ≠ 0) (hq : q ≠ 0)
    (he : Eqv st p q) (hc : (replaceUser P p v q st u).clobbered = false) :
    Inv P fresh (replaceUser P p v q st u) E pos S ∧ Ext st (replaceUser P p v q st u) := by
  unfold replaceUser at hc ⊢
  split
  · rename_i hu
    -- a candidate
    have hphis : ∀ x ph, st.phis x = some ph → ∃ ph',
        (modPhi st u fun ph => { ph with args := ph.args.map (subst p q) }).phis x = some ph' ∧
        ph'.var = ph.var ∧ ph'.bb = ph.bb ∧ ph'.copyOf = ph.copyOf ∧ ph'.complete = ph.complete ∧
        (ph'.args = ph.args ∨ ph'.args = ph.args.map (subst p q)) := by
      intro x ph hx
      rw [modPhi_phis, hx]
      by_cases hxu : x = u
      · simp only [hxu, if_true]
        exact ⟨_, rfl, rfl, rfl, rfl, rfl, .inr rfl⟩
      · simp only [hxu, if_false]
        exact ⟨_, rfl, rfl, rfl, rfl, rfl, .inl rfl⟩
    have hm : Mono st (modPhi st u fun ph => { ph with args := ph.args.map (subst p q) }) := by
      intro x ph hx _
      obtain ⟨ph', h1, _, _, h4, _⟩ := hphis x ph hx
      exact ⟨ph', h1, h4⟩
    have hext : Ext st (modPhi st u fun ph => { ph with args := ph.args.map (subst p q) }) := by
      refine ⟨fun x ph hx => ?_, rfl⟩
      obtain ⟨ph', h1, h2, h3, h4, h5, h6⟩ := hphis x ph hx
      refine ⟨ph', h1, h2, h3, h4, h5, by rcases h6 with e | e <;> simp [e], ?_⟩
      intro i a a' ha ha'
      rcases h6 with e | e
      · rw [e, ha] at ha'; cases ha'
        exact ⟨Iff.rfl, .refl _⟩
      · rw [e, List.getElem?_map, ha] at ha'
        cases ha'
        have := subst_eqv hp hq he a
        exact ⟨this.1, this.2.mono hm⟩
    refine ⟨?_, hext⟩
    exact h.transfer hext (fun _ _ hx => phis_modPhi_some hx) (fun b w => ⟨Iff.rfl, .refl _⟩)
      (fun e he => ⟨e.2, he, .refl _⟩) (fun r x h => ⟨x, h⟩) rfl rfl rfl
  · rename_i hu
    split
    · rename_i hu2
      rw [if_neg hu, if_pos hu2] at hc
      simp only [note, Bool.or_eq_false_iff, Bool.and_eq_false_iff, bne_eq_false_iff_eq] at hc
      have hd := hc.2
      have hext := ext_note (ext_writeVar st v u q) (st.defs u v != p && st.defs u v != q)
      refine ⟨?_, hext⟩
      refine h.transfer hext (fun _ _ hx => phis_modPhi_some hx) ?_
        (fun e he => ⟨e.2, he, .refl _⟩) (fun r x h => ⟨x, h⟩) rfl rfl rfl
      intro b w
      show (st.defs b w = 0 ↔ (if b = u ∧ w = v then q else st.defs b w) = 0) ∧
        Eqv _ (st.defs b w) (if b = u ∧ w = v then q else st.defs b w)
      by_cases hb : b = u ∧ w = v
      · rw [if_pos hb, hb.1, hb.2]
        have h1 := he.mono hext.mono
        have h2 := Eqv.refl (st := note (writeVar st v u q) (st.defs u v != p && st.defs u v != q)) q
        generalize note (writeVar st v u q) (st.defs u v != p && st.defs u v != q) = s2 at h1 h2 ⊢
        rcases hd with e | e
        · rw [e]
          exact ⟨by simp [hp, hq], h1⟩
        · rw [e]
          exact ⟨Iff.rfl, h2⟩
      · rw [if_neg hb]
        exact ⟨Iff.rfl, .refl _⟩
    · have hext : Ext st { st with loads := st.loads.map fun e => (e.1, subst p q e.2) } := by
        refine ⟨fun x ph hx => ⟨ph, hx, Same.refl _ _⟩, rfl⟩
      refine ⟨?_, hext⟩
      refine h.transfer hext (fun x ph hx => ⟨ph, hx⟩) (fun b w => ⟨Iff.rfl, .refl _⟩) ?_ ?_ rfl rfl rfl
      · intro e he'
        simp only [List.mem_map] at he'
        obtain ⟨e0, h0, rfl⟩ := he'
        exact ⟨e0.2, h0, (subst_eqv hp hq he e0.2).2.mono hext.mono⟩
      · intro r x hx
        exact ⟨subst p q x, List.mem_map.2 ⟨(r, x), hx, rfl⟩⟩

end

theorem replaceUser_clob {P : Prog} {p v q u : Id} {st : St}
    (h : (replaceUser P p v q st u).clobbered = false) : st.clobbered = false := by
  unfold replaceUser at h
  split at h
  · exact h
  · split at h
    · simp only [note, Bool.or_eq_false_iff] at h; exact h.1
    · exact h

theorem replaceUsers_clob {P : Prog} {p v q : Id} : ∀ {us : List Id} {st : St},
    (us.foldl (replaceUser P p v q) st).clobbered = false → st.clobbered = false
  | [], _, h => h
  | u :: us, st, h => replaceUser_clob (replaceUsers_clob (us := us) h)

theorem replaceUsers_ok {P : Prog} {fresh : Id} {E : Ent} {pos : Block → Option Nat} {S : List Id}
    {p v q : Id} (hp : p ≠ 0) (hq : q ≠ 0) : ∀ {us : List Id} {st : St}, Inv P fresh st E pos S →
    Eqv st p q → (us.foldl (replaceUser P p v q) st).clobbered = false →
    Inv P fresh (us.foldl (replaceUser P p v q) st) E pos S ∧
      Ext st (us.foldl (replaceUser P p v q) st)
  | [], st, h, _, _ => ⟨h, Ext.refl _⟩
  | u :: us, st, h, he, hc => by
    have h1 := replaceUser_ok h hp hq he (u := u) (v := v) (replaceUsers_clob (us := us) hc)
    have h2 := replaceUsers_ok hp hq (us := us) h1.1 (he.mono h1.2.mono) hc
    exact ⟨h2.1, h1.2.trans h2.2⟩

end Verif.Ssa
