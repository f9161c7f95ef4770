import Verif.Ssa.Inv

/-
# Every step of the rewriter keeps the invariant
-/

set_option linter.unusedSimpArgs false
set_option linter.unusedVariables false

namespace Verif.Ssa

/-- All candidates but `p` stay, up to replacements. -/
structure ExtN (p : Id) (st st' : St) : Prop where
  phis : ∀ x ph, x ≠ p → st.phis x = some ph → ∃ ph', st'.phis x = some ph' ∧ Same st' ph ph'
  mono : Mono st st'
  isSealed : st'.isSealed = st.isSealed

theorem Ext.toN {st st' : St} (h : Ext st st') (p : Id) : ExtN p st st' :=
  ⟨fun x ph _ hx => h.phis x ph hx, h.mono, h.isSealed⟩

theorem Mono.trans {a b c : St} (h1 : Mono a b) (h2 : Mono b c) : Mono a c := by
  intro p ph hp hc
  obtain ⟨ph1, hp1, e1⟩ := h1 p ph hp hc
  obtain ⟨ph2, hp2, e2⟩ := h2 p ph1 hp1 (by rw [e1]; exact hc)
  exact ⟨ph2, hp2, e2.trans e1⟩

theorem ExtN.trans {p : Id} {a b c : St} (h1 : ExtN p a b) (h2 : ExtN p b c) : ExtN p a c := by
  refine ⟨fun x ph hx hp => ?_, h1.mono.trans h2.mono, h2.isSealed.trans h1.isSealed⟩
  obtain ⟨ph1, hp1, s1⟩ := h1.phis x ph hx hp
  obtain ⟨ph2, hp2, s2⟩ := h2.phis x ph1 hx hp1
  exact ⟨ph2, hp2, s1.trans h2.mono s2⟩

theorem ExtN.toExt {p : Id} {base st st' : St} (h1 : Ext base st) (h2 : ExtN p st st')
    (hp : base.phis p = none) : Ext base st' := by
  refine ⟨fun x ph hx => ?_, h2.isSealed.trans h1.isSealed⟩
  have hne : x ≠ p := by rintro rfl; rw [hp] at hx; cases hx
  obtain ⟨ph1, hp1, s1⟩ := h1.phis x ph hx
  obtain ⟨ph2, hp2, s2⟩ := h2.phis x ph1 hne hp1
  exact ⟨ph2, hp2, s1.trans h2.mono s2⟩

section
variable {P : Prog} {fresh : Id} {st : St} {E : Ent} {pos : Block → Option Nat} {S : List Id}

/-- A value for the entry of a block. -/
theorem Inv.setEntry (h : Inv P fresh st E pos S) {b : Block} {k : Nat} {v : Var} {x : Id}
    (hk : pos b = some k) (hb : b ∈ P.order) (hl : lastStore v ((P.insts b).take k) = none)
    (hx : x ≠ 0) (hent : EntOK P st E b v x) (hz : ∀ z, E b v = some z → Eqv st z x) :
    ∃ E', Inv P fresh (setDef st v b x) E' pos S ∧ (∀ b v x, E b v = some x → E' b v = some x) ∧
      ∃ z, E' b v = some z ∧ Eqv st z x := by
  obtain ⟨z0, hz0, hz1, hz2⟩ : ∃ z0, (∀ z, E b v = some z → z0 = z) ∧ Eqv st z0 x ∧
      (z0 ≠ 0 ∧ EntOK P st E b v z0) := by
    cases he : E b v with
    | none => exact ⟨x, by simp, .refl _, hx, hent⟩
    | some z =>
      have := h.ent b v z he
      exact ⟨z, by simp, hz z he, this.1, this.2.2.2⟩
  let E' : Ent := fun b' v' => if b' = b ∧ v' = v then some z0 else E b' v'
  have hE : ∀ b v x, E b v = some x → E' b v = some x := by
    intro b' v' w hw
    simp only [E']
    split
    · rename_i hc
      rw [hc.1, hc.2] at hw
      rw [hz0 w hw]
    · exact hw
  have hE0 : E' b v = some z0 := by simp [E']
  have hm : Mono st (setDef st v b x) := fun p ph hp _ => ⟨ph, hp, rfl⟩
  have hext : Ext st (setDef st v b x) := ⟨fun p ph hp => ⟨ph, hp, Same.refl _ _⟩, rfl⟩
  have hd : ∀ b' v', (setDef st v b x).defs b' v' = if b' = b ∧ v' = v then x else st.defs b' v' :=
    fun _ _ => rfl
  refine ⟨E', ?_, hE, z0, hE0, hz1⟩
  constructor
  · exact h.phi_ok
  · exact h.le_next
  · intro b' v' w hw
    simp only [E'] at hw
    rw [hd]
    split at hw
    · rename_i hc
      cases hw
      rw [if_pos hc, hc.1, hc.2]
      exact ⟨hz2.1, hb, hx, hz2.2.mono hE hext⟩
    · rename_i hc
      rw [if_neg hc]
      have := h.ent b' v' w hw
      exact ⟨this.1, this.2.1, this.2.2.1, this.2.2.2.mono hE hext⟩
  · intro b' v' hp
    rw [hd, if_neg, h.defs_none b' v' hp]
    rintro ⟨rfl, _⟩
    rw [hk] at hp; cases hp
  · intro b' k' v' hp hne
    rw [hd] at hne ⊢
    by_cases hc : b' = b ∧ v' = v
    · rw [if_pos hc]
      obtain ⟨rfl, rfl⟩ := hc
      rw [hk] at hp; cases hp
      refine ⟨z0, ?_, (hz1.mono hm).symm⟩
      simp only [reaching]
      rw [hl]; exact hE0
    · rw [if_neg hc] at hne ⊢
      obtain ⟨y, h1, h2⟩ := h.defs_ok b' k' v' hp hne
      exact ⟨y, reaching_mono hE h1, h2.mono hm⟩
  · intro b' k' v' hp hls
    rw [hd]
    split
    · exact hx
    · exact h.defs_store b' k' v' hp hls
  · intro p ph i a q hp ha hne hq ho
    obtain ⟨y, h1, h2⟩ := h.args_ok p ph i a q hp ha hne hq ho
    exact ⟨y, reaching_mono hE h1, h2.mono hm⟩
  · intro p ph hp hc a ha
    exact (h.copy_ok p ph hp hc a ha).mono hm
  · exact h.status
  · exact h.open_ok
  · exact h.gen_ok
  · exact h.nodup
  · exact h.isSealed
  · intro e he
    obtain ⟨b', k', v', y, h3, h4, h5, h6⟩ := h.loads_ok e he
    exact ⟨b', k', v', y, h3, h4, reaching_mono hE h5, h6.mono hm⟩
  · exact h.loads_all

theorem mono_addUser (st : St) (p u : Id) : Mono st (addUser st p u) := (ext_addUser st p u).mono

theorem Inv.writeEntry (h : Inv P fresh st E pos S) {b : Block} {k : Nat} {v : Var} {x : Id}
    (hk : pos b = some k) (hb : b ∈ P.order) (hl : lastStore v ((P.insts b).take k) = none)
    (hx : x ≠ 0) (hent : EntOK P st E b v x) (hz : ∀ z, E b v = some z → Eqv st z x) :
    ∃ E', Inv P fresh (writeVar st v b x) E' pos S ∧ (∀ b v x, E b v = some x → E' b v = some x) ∧
      ∃ z, E' b v = some z ∧ Eqv (writeVar st v b x) z x := by
  obtain ⟨E', h1, h2, z, h3, h4⟩ := h.setEntry hk hb hl hx hent hz
  exact ⟨E', h1.addUser x b, h2, z, h3, h4.mono (ext_writeVar st v b x).mono⟩

theorem Inv.phis_next (h : Inv P fresh st E pos S) : st.phis st.next = none := by
  cases hp : st.phis st.next with
  | none => rfl
  | some ph =>
    have := (h.phi_ok _ _ hp).2.1
    exact absurd this (Nat.lt_irrefl _)

theorem Inv.newPhi (h : Inv P fresh st E pos S) {b : Block} {v : Var} (hb : b ∈ P.order)
    (hp2 : 2 ≤ (P.preds b).length) :
    Inv P fresh (newPhi v b st) E pos (st.next :: S) ∧ Ext st (newPhi v b st) := by
  have hn := h.phis_next
  have hph : ∀ x, (Ssa.newPhi v b st).phis x =
      if x = st.next then some ⟨v, b, [], 0, false, []⟩ else st.phis x := fun _ => rfl
  have hold : ∀ x ph, st.phis x = some ph → (Ssa.newPhi v b st).phis x = some ph := by
    intro x ph hx
    rw [hph, if_neg, hx]
    rintro rfl; rw [hn] at hx; cases hx
  have hext : Ext st (Ssa.newPhi v b st) := ⟨fun x ph hx => ⟨ph, hold x ph hx, Same.refl _ _⟩, rfl⟩
  have hm := hext.mono
  refine ⟨?_, hext⟩
  constructor
  · intro p ph hp
    rw [hph] at hp
    show _ ∧ p < st.next + 1 ∧ _
    split at hp
    · rename_i e
      cases hp
      subst e
      exact ⟨h.le_next, Nat.lt_succ_self _, hb, hp2⟩
    · have := h.phi_ok p ph hp
      exact ⟨this.1, Nat.lt_succ_of_lt this.2.1, this.2.2⟩
  · exact Nat.le_succ_of_le h.le_next
  · intro b' v' x hx
    have := h.ent b' v' x hx
    exact ⟨this.1, this.2.1, this.2.2.1, this.2.2.2.mono (fun _ _ _ e => e) hext⟩
  · exact h.defs_none
  · intro b' k v' hp hd
    obtain ⟨y, h1, h2⟩ := h.defs_ok b' k v' hp hd
    exact ⟨y, h1, h2.mono hm⟩
  · exact h.defs_store
  · intro p ph i a q hp ha hne hq ho
    rw [hph] at hp
    split at hp
    · cases hp; simp at ha
    · obtain ⟨y, h1, h2⟩ := h.args_ok p ph i a q hp ha hne hq ho
      exact ⟨y, h1, h2.mono hm⟩
  · intro p ph hp hc a ha
    rw [hph] at hp
    split at hp
    · cases hp; simp at ha
    · exact (h.copy_ok p ph hp hc a ha).mono hm
  · intro p ph hp
    rw [hph] at hp
    split at hp
    · rename_i e; exact .inl (by simp [e])
    · rcases h.status p ph hp with h1 | h1 | h1
      · exact .inl (List.mem_cons_of_mem _ h1)
      · exact .inr (.inl h1)
      · exact .inr (.inr h1)
  · intro p hp
    by_cases e : p = st.next
    · exact ⟨⟨v, b, [], 0, false, []⟩, by rw [hph, if_pos e], rfl⟩
    · have : p ∈ S ∨ p ∈ st.queue := by
        rcases hp with hp | hp
        · exact .inl (by simpa [e] using hp)
        · exact .inr hp
      obtain ⟨ph, h1, h2⟩ := h.open_ok p this
      exact ⟨ph, hold p ph h1, h2⟩
  · intro p hp
    obtain ⟨ph, h1, h2⟩ := h.gen_ok p hp
    exact ⟨ph, hold p ph h1, h2⟩
  · rw [List.cons_append, List.nodup_cons]
    refine ⟨fun hm => ?_, h.nodup⟩
    have : ∃ ph, st.phis st.next = some ph := by
      rcases List.mem_append.1 hm with h1 | h1
      · obtain ⟨ph, e, _⟩ := h.open_ok _ (.inl h1); exact ⟨ph, e⟩
      · rcases List.mem_append.1 h1 with h1 | h1
        · obtain ⟨ph, e, _⟩ := h.open_ok _ (.inr h1); exact ⟨ph, e⟩
        · obtain ⟨ph, e, _⟩ := h.gen_ok _ h1; exact ⟨ph, e⟩
    obtain ⟨ph, e⟩ := this
    rw [hn] at e; cases e
  · exact h.isSealed
  · intro e he
    obtain ⟨b', k', v', y, h3, h4, h5, h6⟩ := h.loads_ok e he
    exact ⟨b', k', v', y, h3, h4, h5, h6.mono hm⟩
  · exact h.loads_all

/-- Change an open candidate. -/
theorem Inv.modOpen (h : Inv P fresh st E pos S) {p : Id} {ph : Phi} (hp : st.phis p = some ph)
    (hS : p ∈ S) (f : Phi → Phi) (hvar : (f ph).var = ph.var) (hbb : (f ph).bb = ph.bb)
    (hcopy : (f ph).copyOf = ph.copyOf)
    (hargs : ∀ (i : Nat) (a : Id) (q : Block), (f ph).args[i]? = some a → a ≠ 0 →
      (P.preds ph.bb)[i]? = some q → q ∈ P.order →
      ∃ y, reaching P E ph.var (q, (P.insts q).length) = some y ∧ Eqv st a y) :
    Inv P fresh (modPhi st p f) E pos S ∧ ExtN p st (modPhi st p f) ∧
      (modPhi st p f).phis p = some (f ph) := by
  have hph := modPhi_phis st p f
  have hpp : (modPhi st p f).phis p = some (f ph) := by rw [hph, if_pos rfl, hp]; rfl
  have hold : ∀ x ph', x ≠ p → st.phis x = some ph' → (modPhi st p f).phis x = some ph' := by
    intro x ph' hx h'
    rw [hph, if_neg hx, h']
  have hback : ∀ x ph', (modPhi st p f).phis x = some ph' →
      (x = p ∧ ph' = f ph) ∨ (x ≠ p ∧ st.phis x = some ph') := by
    intro x ph' hx
    by_cases e : x = p
    · subst e
      rw [hpp] at hx; cases hx
      exact .inl ⟨rfl, rfl⟩
    · rw [hph, if_neg e] at hx
      exact .inr ⟨e, hx⟩
  have hm : Mono st (modPhi st p f) := by
    intro x ph' hx hc
    by_cases e : x = p
    · subst e
      rw [hp] at hx; cases hx
      exact ⟨_, hpp, hcopy⟩
    · exact ⟨ph', hold x ph' e hx, rfl⟩
  have hc0 : ph.copyOf = 0 := by
    obtain ⟨ph', h1, h2⟩ := h.open_ok p (.inl hS)
    rw [hp] at h1; cases h1; exact h2
  have hEnt : ∀ b v x, EntOK P st E b v x → EntOK P (modPhi st p f) E b v x := by
    rintro b v x (h1 | ⟨q, y, h1, h2, h3⟩ | ⟨q, ph', h1, h2, h3, h4⟩)
    · exact .inl h1
    · exact .inr (.inl ⟨q, y, h1, h2, h3.mono hm⟩)
    · by_cases e : q = p
      · subst e
        rw [hp] at h1; cases h1
        exact .inr (.inr ⟨q, f ph, hpp, hbb.trans h2, hvar.trans h3, h4.mono hm⟩)
      · exact .inr (.inr ⟨q, ph', hold q ph' e h1, h2, h3, h4.mono hm⟩)
  have hnd : ∀ x ∈ st.toGen, x ≠ p := by
    rintro x hx rfl
    exact (List.nodup_append.1 h.nodup).2.2 x hS x (List.mem_append.2 (.inr hx)) rfl
  refine ⟨?_, ⟨fun x ph' hx h' => ⟨ph', hold x ph' hx h', Same.refl _ _⟩, hm, rfl⟩, hpp⟩
  constructor
  · intro x ph' hx
    rcases hback x ph' hx with ⟨rfl, rfl⟩ | ⟨_, hx⟩
    · rw [hbb]; exact h.phi_ok _ _ hp
    · exact h.phi_ok _ _ hx
  · exact h.le_next
  · intro b v x hx
    have := h.ent b v x hx
    exact ⟨this.1, this.2.1, this.2.2.1, hEnt b v x this.2.2.2⟩
  · exact h.defs_none
  · intro b k v hpos hd
    obtain ⟨y, h1, h2⟩ := h.defs_ok b k v hpos hd
    exact ⟨y, h1, h2.mono hm⟩
  · exact h.defs_store
  · intro x ph' i a q hx ha hne hq ho
    rcases hback x ph' hx with ⟨rfl, rfl⟩ | ⟨_, hx⟩
    · rw [hbb] at hq
      obtain ⟨y, h1, h2⟩ := hargs i a q ha hne hq ho
      exact ⟨y, by rw [hvar]; exact h1, h2.mono hm⟩
    · obtain ⟨y, h1, h2⟩ := h.args_ok x ph' i a q hx ha hne hq ho
      exact ⟨y, h1, h2.mono hm⟩
  · intro x ph' hx hc a ha
    rcases hback x ph' hx with ⟨rfl, rfl⟩ | ⟨_, hx⟩
    · exact absurd (hcopy.trans hc0) hc
    · exact (h.copy_ok x ph' hx hc a ha).mono hm
  · intro x ph' hx
    rcases hback x ph' hx with ⟨rfl, rfl⟩ | ⟨_, hx⟩
    · exact .inl hS
    · exact h.status x ph' hx
  · intro x hx
    obtain ⟨ph', h1, h2⟩ := h.open_ok x hx
    by_cases e : x = p
    · subst e
      exact ⟨_, hpp, hcopy.trans hc0⟩
    · exact ⟨ph', hold x ph' e h1, h2⟩
  · intro x hx
    obtain ⟨ph', h1, h2⟩ := h.gen_ok x hx
    exact ⟨ph', hold x ph' (hnd x hx) h1, h2⟩
  · exact h.nodup
  · exact h.isSealed
  · intro e he
    obtain ⟨b', k', v', y, h3, h4, h5, h6⟩ := h.loads_ok e he
    exact ⟨b', k', v', y, h3, h4, h5, h6.mono hm⟩
  · exact h.loads_all

/-- An incomplete candidate goes to the queue. -/
theorem Inv.toQueue {p : Id} (h : Inv P fresh st E pos (p :: S)) {ph : Phi} (hp : st.phis p = some ph)
    (hlen : ph.args.length = (P.preds ph.bb).length) : Inv P fresh (pushQueue st p) E pos S := by
  have hm : Mono st (pushQueue st p) := fun x ph' hx _ => ⟨ph', hx, rfl⟩
  have hext : Ext st (pushQueue st p) := ⟨fun x ph' hx => ⟨ph', hx, Same.refl _ _⟩, rfl⟩
  constructor
  · exact h.phi_ok
  · exact h.le_next
  · intro b v x hx
    have := h.ent b v x hx
    exact ⟨this.1, this.2.1, this.2.2.1, this.2.2.2.mono (fun _ _ _ e => e) hext⟩
  · exact h.defs_none
  · intro b k v hpos hd
    obtain ⟨y, h1, h2⟩ := h.defs_ok b k v hpos hd
    exact ⟨y, h1, h2.mono hm⟩
  · exact h.defs_store
  · intro x ph' i a q hx ha hne hq ho
    obtain ⟨y, h1, h2⟩ := h.args_ok x ph' i a q hx ha hne hq ho
    exact ⟨y, h1, h2.mono hm⟩
  · intro x ph' hx hc a ha
    exact (h.copy_ok x ph' hx hc a ha).mono hm
  · intro x ph' hx
    rcases h.status x ph' hx with h1 | h1 | h1
    · rcases List.mem_cons.1 h1 with rfl | h1
      · have hx' : st.phis x = some ph' := hx
        rw [hp] at hx'; cases hx'
        exact .inr (.inl ⟨List.mem_append.2 (.inr (by simp)), hlen⟩)
      · exact .inl h1
    · exact .inr (.inl ⟨List.mem_append.2 (.inl h1.1), h1.2⟩)
    · exact .inr (.inr h1)
  · intro x hx
    apply h.open_ok x
    rcases hx with hx | hx
    · exact .inl (List.mem_cons_of_mem _ hx)
    · rcases List.mem_append.1 hx with hx | hx
      · exact .inr hx
      · exact .inl (by simp at hx; simp [hx])
  · exact h.gen_ok
  · have := h.nodup
    show (S ++ ((st.queue ++ [p]) ++ st.toGen)).Nodup
    have hperm : ((p :: S) ++ (st.queue ++ st.toGen)).Perm (S ++ ((st.queue ++ [p]) ++ st.toGen)) := by
      have h1 : (p :: S ++ (st.queue ++ st.toGen)).Perm (S ++ p :: (st.queue ++ st.toGen)) :=
        List.perm_middle.symm
      refine h1.trans (List.Perm.append_left S ?_)
      rw [List.append_assoc]
      exact List.perm_middle.symm
    exact hperm.nodup_iff.1 this
  · exact h.isSealed
  · intro e he
    obtain ⟨b', k', v', y, h3, h4, h5, h6⟩ := h.loads_ok e he
    exact ⟨b', k', v', y, h3, h4, h5, h6.mono hm⟩
  · exact h.loads_all

/-- A candidate that merges several values is kept. -/
theorem Inv.toGen {p : Id} (h : Inv P fresh st E pos (p :: S)) {ph : Phi} (hp : st.phis p = some ph)
    (hfull : Full P ph) (hcom : ph.complete = true) : Inv P fresh (pushGen st p) E pos S := by
  have hm : Mono st (pushGen st p) := fun x ph' hx _ => ⟨ph', hx, rfl⟩
  have hext : Ext st (pushGen st p) := ⟨fun x ph' hx => ⟨ph', hx, Same.refl _ _⟩, rfl⟩
  have hc0 : ph.copyOf = 0 := by
    obtain ⟨ph', h1, h2⟩ := h.open_ok p (.inl (by simp))
    rw [hp] at h1; cases h1; exact h2
  constructor
  · exact h.phi_ok
  · exact h.le_next
  · intro b v x hx
    have := h.ent b v x hx
    exact ⟨this.1, this.2.1, this.2.2.1, this.2.2.2.mono (fun _ _ _ e => e) hext⟩
  · exact h.defs_none
  · intro b k v hpos hd
    obtain ⟨y, h1, h2⟩ := h.defs_ok b k v hpos hd
    exact ⟨y, h1, h2.mono hm⟩
  · exact h.defs_store
  · intro x ph' i a q hx ha hne hq ho
    obtain ⟨y, h1, h2⟩ := h.args_ok x ph' i a q hx ha hne hq ho
    exact ⟨y, h1, h2.mono hm⟩
  · intro x ph' hx hc a ha
    exact (h.copy_ok x ph' hx hc a ha).mono hm
  · intro x ph' hx
    rcases h.status x ph' hx with h1 | h1 | h1
    · rcases List.mem_cons.1 h1 with rfl | h1
      · have hx' : st.phis x = some ph' := hx
        rw [hp] at hx'; cases hx'
        exact .inr (.inr ⟨hfull, .inr (List.mem_append.2 (.inr (by simp)))⟩)
      · exact .inl h1
    · exact .inr (.inl h1)
    · exact .inr (.inr ⟨h1.1, h1.2.imp id fun h => List.mem_append.2 (.inl h)⟩)
  · intro x hx
    apply h.open_ok x
    rcases hx with hx | hx
    · exact .inl (List.mem_cons_of_mem _ hx)
    · exact .inr hx
  · intro x hx
    rcases List.mem_append.1 hx with hx | hx
    · exact h.gen_ok x hx
    · simp at hx
      subst hx
      exact ⟨ph, hp, hc0, hcom, hfull⟩
  · have := h.nodup
    show (S ++ (st.queue ++ (st.toGen ++ [p]))).Nodup
    have hperm : ((p :: S) ++ (st.queue ++ st.toGen)).Perm (S ++ (st.queue ++ (st.toGen ++ [p]))) := by
      have h1 : (p :: S ++ (st.queue ++ st.toGen)).Perm (S ++ p :: (st.queue ++ st.toGen)) :=
        List.perm_middle.symm
      refine h1.trans (List.Perm.append_left S ?_)
      rw [← List.append_assoc]
      exact (List.perm_append_singleton p _).symm
    exact hperm.nodup_iff.1 this
  · exact h.isSealed
  · intro e he
    obtain ⟨b', k', v', y, h3, h4, h5, h6⟩ := h.loads_ok e he
    exact ⟨b', k', v', y, h3, h4, h5, h6.mono hm⟩
  · exact h.loads_all

/-- A candidate that merges one value becomes a copy of it. -/
theorem Inv.toCopy {p s : Id} (h : Inv P fresh st E pos (p :: S)) {ph : Phi} (hp : st.phis p = some ph)
    (hfull : Full P ph) (hs : s ≠ 0) (hsame : ∀ a ∈ ph.args, a = s ∨ a = p) :
    Inv P fresh (modPhi st p fun ph => { ph with copyOf := s }) E pos S ∧
    ExtN p st (modPhi st p fun ph => { ph with copyOf := s }) ∧
    Eqv (modPhi st p fun ph => { ph with copyOf := s }) p s := by
  generalize hf : (fun ph : Phi => { ph with copyOf := s }) = f
  have hph := modPhi_phis st p f
  have hfph : f ph = { ph with copyOf := s } := by rw [← hf]
  have hpp : (modPhi st p f).phis p = some (f ph) := by rw [hph, if_pos rfl, hp]; rfl
  have hold : ∀ x ph', x ≠ p → st.phis x = some ph' → (modPhi st p f).phis x = some ph' := by
    intro x ph' hx h'
    rw [hph, if_neg hx, h']
  have hback : ∀ x ph', (modPhi st p f).phis x = some ph' →
      (x = p ∧ ph' = f ph) ∨ (x ≠ p ∧ st.phis x = some ph') := by
    intro x ph' hx
    by_cases e : x = p
    · subst e
      rw [hpp] at hx; cases hx
      exact .inl ⟨rfl, rfl⟩
    · rw [hph, if_neg e] at hx
      exact .inr ⟨e, hx⟩
  have hc0 : ph.copyOf = 0 := by
    obtain ⟨ph', h1, h2⟩ := h.open_ok p (.inl (by simp))
    rw [hp] at h1; cases h1; exact h2
  have hm : Mono st (modPhi st p f) := by
    intro x ph' hx hc
    by_cases e : x = p
    · subst e
      rw [hp] at hx; cases hx
      exact absurd hc0 hc
    · exact ⟨ph', hold x ph' e hx, rfl⟩
  have heq : Eqv (modPhi st p f) p s := by
    have := Eqv.copy hpp (by rw [hfph]; exact hs)
    rw [hfph] at this
    exact this
  have hEnt : ∀ b v x, EntOK P st E b v x → EntOK P (modPhi st p f) E b v x := by
    rintro b v x (h1 | ⟨q, y, h1, h2, h3⟩ | ⟨q, ph', h1, h2, h3, h4⟩)
    · exact .inl h1
    · exact .inr (.inl ⟨q, y, h1, h2, h3.mono hm⟩)
    · by_cases e : q = p
      · subst e
        rw [hp] at h1; cases h1
        exact .inr (.inr ⟨q, f ph, hpp, by rw [hfph]; exact h2, by rw [hfph]; exact h3, h4.mono hm⟩)
      · exact .inr (.inr ⟨q, ph', hold q ph' e h1, h2, h3, h4.mono hm⟩)
  have hnodup := h.nodup
  rw [List.cons_append, List.nodup_cons] at hnodup
  refine ⟨?_, ⟨fun x ph' hx h' => ⟨ph', hold x ph' hx h', Same.refl _ _⟩, hm, rfl⟩, heq⟩
  constructor
  · intro x ph' hx
    rcases hback x ph' hx with ⟨rfl, rfl⟩ | ⟨_, hx⟩
    · have := h.phi_ok _ _ hp
      rw [hfph]; exact this
    · exact h.phi_ok _ _ hx
  · exact h.le_next
  · intro b v x hx
    have := h.ent b v x hx
    exact ⟨this.1, this.2.1, this.2.2.1, hEnt b v x this.2.2.2⟩
  · exact h.defs_none
  · intro b k v hpos hd
    obtain ⟨y, h1, h2⟩ := h.defs_ok b k v hpos hd
    exact ⟨y, h1, h2.mono hm⟩
  · exact h.defs_store
  · intro x ph' i a q hx ha hne hq ho
    rcases hback x ph' hx with ⟨rfl, rfl⟩ | ⟨_, hx⟩
    · rw [hfph] at ha hq ⊢
      obtain ⟨y, h1, h2⟩ := h.args_ok x ph i a q hp ha hne hq ho
      exact ⟨y, h1, h2.mono hm⟩
    · obtain ⟨y, h1, h2⟩ := h.args_ok x ph' i a q hx ha hne hq ho
      exact ⟨y, h1, h2.mono hm⟩
  · intro x ph' hx hc a ha
    rcases hback x ph' hx with ⟨rfl, rfl⟩ | ⟨_, hx⟩
    · rw [hfph] at ha
      rcases hsame a ha with rfl | rfl
      · exact heq.symm
      · exact .refl _
    · exact (h.copy_ok x ph' hx hc a ha).mono hm
  · intro x ph' hx
    rcases hback x ph' hx with ⟨rfl, rfl⟩ | ⟨hne, hx⟩
    · exact .inr (.inr ⟨by rw [hfph]; exact hfull, .inl (by rw [hfph]; exact hs)⟩)
    · rcases h.status x ph' hx with h1 | h1 | h1
      · exact .inl (by simpa [hne] using h1)
      · exact .inr (.inl h1)
      · exact .inr (.inr h1)
  · intro x hx
    obtain ⟨ph', h1, h2⟩ := h.open_ok x (hx.imp (List.mem_cons_of_mem _) id)
    have hne : x ≠ p := by
      rintro rfl
      apply hnodup.1
      rcases hx with hx | hx
      · simp [hx]
      · have hx : x ∈ st.queue := hx
        simp [hx]
    exact ⟨ph', hold x ph' hne h1, h2⟩
  · intro x hx
    obtain ⟨ph', h1, h2⟩ := h.gen_ok x hx
    have hne : x ≠ p := by
      rintro rfl
      apply hnodup.1
      simp only [List.mem_append]
      exact .inr (.inr hx)
    exact ⟨ph', hold x ph' hne h1, h2⟩
  · exact hnodup.2
  · exact h.isSealed
  · intro e he
    obtain ⟨b', k', v', y, h3, h4, h5, h6⟩ := h.loads_ok e he
    exact ⟨b', k', v', y, h3, h4, h5, h6.mono hm⟩
  · exact h.loads_all

end

end Verif.Ssa
