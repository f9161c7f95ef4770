import Verif.Ssa.Reach

/-
# The whole run keeps the invariant
-/

set_option linter.unusedSimpArgs false
set_option linter.unusedVariables false

namespace Verif.Ssa

/-- Blocks of `pre` are done. -/
def posDone (P : Prog) (pre : List Block) (x : Block) : Option Nat :=
  if x ∈ pre then some (P.insts x).length else none

/-- Blocks of `pre` are done and `k` instructions of `b`. -/
def posAt (P : Prog) (pre : List Block) (b : Block) (k : Nat) (x : Block) : Option Nat :=
  if x ∈ pre then some (P.insts x).length else if x = b then some k else none

section
variable {P : Prog} {fresh : Id}

theorem posAt_self {pre : List Block} {b : Block} {k : Nat} (h : b ∉ pre) :
    posAt P pre b k b = some k := by simp [posAt, h]

theorem posAt_len {pre : List Block} {b : Block} (h : b ∉ pre) :
    posAt P pre b (P.insts b).length = posDone P (pre ++ [b]) := by
  funext x
  simp only [posAt, posDone, List.mem_append, List.mem_singleton]
  by_cases h1 : x ∈ pre
  · simp [h1]
  · by_cases h2 : x = b
    · subst h2; simp [h1]
    · simp [h1, h2]

theorem posOK_done (hV : Valid P fresh) {pre post : List Block} (ho : P.order = pre ++ post) :
    PosOK P (posDone P pre) := by
  intro b k p hb hp
  simp only [posDone] at hb
  split at hb
  · rename_i hm
    obtain ⟨u, w, e⟩ := List.append_of_mem hm
    have : p ∈ u := hV.single u b (w ++ post) p (by rw [ho, e]; simp) hp
    have hpp : p ∈ pre := by rw [e]; simp [this]
    exact ⟨by simp [posDone, hpp], by rw [ho]; simp [hpp]⟩
  · cases hb

theorem posOK_at (hV : Valid P fresh) {pre post : List Block} {b : Block} {k : Nat}
    (ho : P.order = pre ++ b :: post) : PosOK P (posAt P pre b k) := by
  intro c k' p hc hp
  have key : p ∈ pre := by
    simp only [posAt] at hc
    split at hc
    · rename_i hm
      obtain ⟨u, w, e⟩ := List.append_of_mem hm
      have : p ∈ u := hV.single u c (w ++ b :: post) p (by rw [ho, e]; simp) hp
      rw [e]; simp [this]
    · split at hc
      · rename_i e; subst e
        exact hV.single pre c post p ho hp
      · cases hc
  exact ⟨by simp [posAt, key], by rw [ho]; simp [key]⟩

theorem Inv.store {st : St} {E : Ent} {S : List Id} {pre : List Block} {b : Block} {k : Nat} {v : Var}
    {x : Id} (h : Inv P fresh st E (posAt P pre b k) S) (hb : b ∉ pre) (hx : x ≠ 0)
    (hi : (P.insts b)[k]? = some (.store v x)) :
    Inv P fresh (setDef st v b x) E (posAt P pre b (k + 1)) S := by
  have hm : Mono st (setDef st v b x) := fun p ph hp _ => ⟨ph, hp, rfl⟩
  have hext : Ext st (setDef st v b x) := ⟨fun p ph hp => ⟨ph, hp, Same.refl _ _⟩, rfl⟩
  have hd : ∀ b' v', (setDef st v b x).defs b' v' = if b' = b ∧ v' = v then x else st.defs b' v' :=
    fun _ _ => rfl
  have hkl : k < (P.insts b).length := (List.getElem?_eq_some_iff.1 hi).1
  have hself := posAt_self (P := P) (k := k) hb
  have hself' := posAt_self (P := P) (k := k + 1) hb
  have hother : ∀ b', b' ≠ b → posAt P pre b (k + 1) b' = posAt P pre b k b' := by
    intro b' hne; simp [posAt, hne]
  constructor
  · exact h.phi_ok
  · exact h.le_next
  · intro b' v' w hw
    have := h.ent b' v' w hw
    refine ⟨this.1, this.2.1, ?_, this.2.2.2.mono (fun _ _ _ e => e) hext⟩
    rw [hd]; split
    · exact hx
    · exact this.2.2.1
  · intro b' v' hp
    have hne : b' ≠ b := by rintro rfl; rw [hself'] at hp; cases hp
    rw [hother b' hne] at hp
    rw [hd, if_neg (fun c => hne c.1), h.defs_none b' v' hp]
  · intro b' k' v' hp hne
    rw [hd] at hne ⊢
    by_cases hc : b' = b
    · subst hc
      rw [hself'] at hp; cases hp
      by_cases hv : v' = v
      · subst hv
        rw [if_pos ⟨rfl, rfl⟩]
        exact ⟨x, reaching_store hi, .refl _⟩
      · rw [if_neg (fun c => hv c.2)] at hne ⊢
        obtain ⟨y, h1, h2⟩ := h.defs_ok b' k v' hself hne
        refine ⟨y, ?_, h2.mono hm⟩
        rw [reaching_keep hi (fun y e => hv (by cases e; rfl))]
        exact h1
    · rw [if_neg (fun c => hc c.1)] at hne ⊢
      rw [hother b' hc] at hp
      obtain ⟨y, h1, h2⟩ := h.defs_ok b' k' v' hp hne
      exact ⟨y, h1, h2.mono hm⟩
  · intro b' k' v' hp hls
    rw [hd]
    by_cases hc : b' = b
    · subst hc
      rw [hself'] at hp; cases hp
      by_cases hv : v' = v
      · subst hv
        rw [if_pos ⟨rfl, rfl⟩]
        exact hx
      · rw [if_neg (fun c => hv c.2)]
        rw [lastStore_succ hi] at hls
        simp only [if_neg (Ne.symm hv)] at hls
        exact h.defs_store b' k v' hself hls
    · rw [if_neg (fun c => hc c.1)]
      rw [hother b' hc] at hp
      exact h.defs_store b' k' v' hp hls
  · intro p ph i a q hp ha hne hq ho
    obtain ⟨y, h1, h2⟩ := h.args_ok p ph i a q hp ha hne hq ho
    exact ⟨y, h1, h2.mono hm⟩
  · intro p ph hp hc a ha
    exact (h.copy_ok p ph hp hc a ha).mono hm
  · exact h.status
  · exact h.open_ok
  · exact h.gen_ok
  · exact h.nodup
  · intro b' hs
    have := h.isSealed b' hs
    have hne : b' ≠ b := by
      rintro rfl
      rw [hself] at this
      have := Option.some.inj this.1
      omega
    rw [hother b' hne]
    exact this
  · intro e he
    obtain ⟨b', k', v', y, h3, h4, h5, h6⟩ := h.loads_ok e he
    exact ⟨b', k', v', y, h3, h4, h5, h6.mono hm⟩
  · intro b' k' j r v' hp hj hl
    by_cases hc : b' = b
    · subst hc
      rw [hself'] at hp; cases hp
      by_cases hjk : j = k
      · subst hjk; rw [hi] at hl; cases hl
      · exact h.loads_all b' k j r v' hself (by omega) hl
    · rw [hother b' hc] at hp
      exact h.loads_all b' k' j r v' hp hj hl

theorem Inv.posStep {st : St} {E : Ent} {S : List Id} {pre : List Block} {b : Block} {k : Nat} {i : Inst}
    (h : Inv P fresh st E (posAt P pre b k) S) (hb : b ∉ pre)
    (hi : (P.insts b)[k]? = some i) (hns : ∀ v x, i ≠ .store v x)
    (hld : ∀ r v, i = .load r v → ∃ x, (r, x) ∈ st.loads) :
    Inv P fresh st E (posAt P pre b (k + 1)) S := by
  have hkl : k < (P.insts b).length := (List.getElem?_eq_some_iff.1 hi).1
  have hself := posAt_self (P := P) (k := k) hb
  have hself' := posAt_self (P := P) (k := k + 1) hb
  have hother : ∀ b', b' ≠ b → posAt P pre b (k + 1) b' = posAt P pre b k b' := by
    intro b' hne; simp [posAt, hne]
  constructor
  · exact h.phi_ok
  · exact h.le_next
  · exact h.ent
  · intro b' v' hp
    have hne : b' ≠ b := by rintro rfl; rw [hself'] at hp; cases hp
    rw [hother b' hne] at hp
    exact h.defs_none b' v' hp
  · intro b' k' v' hp hne
    by_cases hc : b' = b
    · subst hc
      rw [hself'] at hp; cases hp
      obtain ⟨y, h1, h2⟩ := h.defs_ok b' k v' hself hne
      exact ⟨y, by rw [reaching_keep hi (hns v')]; exact h1, h2⟩
    · rw [hother b' hc] at hp
      exact h.defs_ok b' k' v' hp hne
  · intro b' k' v' hp hls
    by_cases hc : b' = b
    · subst hc
      rw [hself'] at hp; cases hp
      refine h.defs_store b' k v' hself ?_
      rw [lastStore_succ hi] at hls
      cases i with
      | store w y => exact absurd rfl (hns w y)
      | load r w => exact hls
      | other r ops => exact hls
    · rw [hother b' hc] at hp
      exact h.defs_store b' k' v' hp hls
  · exact h.args_ok
  · exact h.copy_ok
  · exact h.status
  · exact h.open_ok
  · exact h.gen_ok
  · exact h.nodup
  · intro b' hs
    have := h.isSealed b' hs
    have hne : b' ≠ b := by
      rintro rfl
      rw [hself] at this
      have := Option.some.inj this.1
      omega
    rw [hother b' hne]
    exact this
  · exact h.loads_ok
  · intro b' k' j r v' hp hj hl
    by_cases hc : b' = b
    · subst hc
      rw [hself'] at hp; cases hp
      by_cases hjk : j = k
      · subst hjk; rw [hi] at hl; cases hl; exact hld r v' rfl
      · exact h.loads_all b' k j r v' hself (by omega) hl
    · rw [hother b' hc] at hp
      exact h.loads_all b' k' j r v' hp hj hl

theorem Inv.pushLoad {st : St} {E : Ent} {pos : Block → Option Nat} {S : List Id} {b : Block} {k : Nat}
    {v : Var} {r x y : Id} (h : Inv P fresh st E pos S) (hb : b ∈ P.order)
    (hi : (P.insts b)[k]? = some (.load r v)) (hr : reaching P E v (b, k) = some y) (hx : Eqv st x y) :
    Inv P fresh (pushLoad st r x) E pos S := by
  have hm : Mono st (Ssa.pushLoad st r x) := fun p ph hp _ => ⟨ph, hp, rfl⟩
  have hext : Ext st (Ssa.pushLoad st r x) := ⟨fun p ph hp => ⟨ph, hp, Same.refl _ _⟩, rfl⟩
  constructor
  · exact h.phi_ok
  · exact h.le_next
  · intro b v x hx
    have := h.ent b v x hx
    exact ⟨this.1, this.2.1, this.2.2.1, this.2.2.2.mono (fun _ _ _ e => e) hext⟩
  · exact h.defs_none
  · intro b k v hpos hd
    obtain ⟨y, h1, h2⟩ := h.defs_ok b k v hpos hd
    exact ⟨y, h1, h2.mono hm⟩
  · exact h.defs_store
  · intro x ph' i a q hx ha hne hq ho
    obtain ⟨y, h1, h2⟩ := h.args_ok x ph' i a q hx ha hne hq ho
    exact ⟨y, h1, h2.mono hm⟩
  · intro x ph' hx hc a ha
    exact (h.copy_ok x ph' hx hc a ha).mono hm
  · exact h.status
  · exact h.open_ok
  · exact h.gen_ok
  · exact h.nodup
  · exact h.isSealed
  · intro e he
    rcases List.mem_append.1 he with he | he
    · obtain ⟨b', k', v', y, h3, h4, h5, h6⟩ := h.loads_ok e he
      exact ⟨b', k', v', y, h3, h4, h5, h6.mono hm⟩
    · simp at he
      subst he
      exact ⟨b, k, v, y, hb, hi, hr, hx.mono hm⟩
  · intro b' k' j r' v' hp hj hl
    obtain ⟨x', hx'⟩ := h.loads_all b' k' j r' v' hp hj hl
    exact ⟨x', List.mem_append.2 (.inl hx')⟩

theorem procInst_clob {fuel : Nat} {b : Block} {st st' : St} {i : Inst}
    (h : procInst P fuel b st i = some st') (hc : st'.clobbered = false) : st.clobbered = false := by
  cases i with
  | store v x => cases h; exact hc
  | load r v =>
    simp only [procInst] at h
    split at h
    · cases h
    · rename_i x st1 hr
      cases h
      exact reach_clob fuel _ _ _ _ hr hc
  | other => cases h; exact hc

theorem procInsts_clob {fuel : Nat} {b : Block} : ∀ {is : List Inst} {st st' : St},
    procInsts P fuel b is st = some st' → st'.clobbered = false → st.clobbered = false
  | [], st, st', h, hc => by cases h; exact hc
  | i :: is, st, st', h, hc => by
    simp only [procInsts] at h
    split at h
    · cases h
    · rename_i st1 hr
      exact procInst_clob hr (procInsts_clob h hc)

theorem procInsts_ok (hV : Valid P fresh) (hf0 : fresh ≠ 0) {fuel : Nat} {pre post : List Block}
    {b : Block} (ho : P.order = pre ++ b :: post) (hb : b ∉ pre) :
    ∀ {is done : List Inst} {st st' : St} {E : Ent}, P.insts b = done ++ is →
    Inv P fresh st E (posAt P pre b done.length) [] → procInsts P fuel b is st = some st' →
    st'.clobbered = false →
    ∃ E', Inv P fresh st' E' (posAt P pre b (P.insts b).length) [] ∧ st'.isSealed = st.isSealed
  | [], done, st, st', E, he, h, hr, hc => by
    cases hr
    rw [he]
    exact ⟨E, by simpa using h, rfl⟩
  | i :: is, done, st, st', E, he, h, hr, hc => by
    have hbo : b ∈ P.order := by rw [ho]; simp
    have hi : (P.insts b)[done.length]? = some i := by rw [he]; simp
    simp only [procInsts] at hr
    split at hr
    · cases hr
    · rename_i st1 hr1
      have hc1 := procInsts_clob hr hc
      have key : ∃ E1, Inv P fresh st1 E1 (posAt P pre b (done.length + 1)) [] ∧
          st1.isSealed = st.isSealed := by
        cases i with
        | store v x =>
          cases hr1
          have hx := (hV.ids b hbo _ (List.mem_of_getElem? hi) x (.inl (by simp [Inst.operands]))).1
          exact ⟨E, (h.store hb hx hi).addUser x b, rfl⟩
        | load r v =>
          simp only [procInst] at hr1
          split at hr1
          · cases hr1
          · rename_i x st2 hr2
            cases hr1
            obtain ⟨E2, i2, e2, x2, hne, y, hy, hxy⟩ := reach_ok hV hf0 (posOK_at hV ho) fuel b
              done.length st x st2 E [] h (posAt_self hb) hbo hr2 hc1
            refine ⟨E2, ((i2.pushLoad hbo hi hy hxy).addUser x r).posStep hb hi (by simp) ?_,
              x2.isSealed⟩
            intro r' v' e
            cases e
            exact ⟨x, List.mem_append.2 (.inr (by simp))⟩
        | other r ops =>
          cases hr1
          exact ⟨E, h.posStep hb hi (by simp) (by simp), rfl⟩
      obtain ⟨E1, i1, s1⟩ := key
      obtain ⟨E3, i3, s3⟩ := procInsts_ok hV hf0 ho hb (done := done ++ [i]) (by rw [he]; simp)
        (by simpa using i1) hr hc
      exact ⟨E3, i3, s3.trans s1⟩

theorem Inv.sealB {st : St} {E : Ent} {S : List Id} {pre : List Block} {b : Block} (hb : b ∈ P.order)
    (h : Inv P fresh st E (posDone P (pre ++ [b])) S) :
    Inv P fresh (sealBlock st b) E (posDone P (pre ++ [b])) S := by
  have hm : Mono st (sealBlock st b) := fun p ph hp _ => ⟨ph, hp, rfl⟩
  have hent : ∀ b' v x, EntOK P st E b' v x → EntOK P (sealBlock st b) E b' v x := by
    rintro b' v x (h1 | ⟨q, y, h1, h2, h3⟩ | ⟨q, ph', h1, h2, h3, h4⟩)
    · exact .inl h1
    · exact .inr (.inl ⟨q, y, h1, h2, h3.mono hm⟩)
    · exact .inr (.inr ⟨q, ph', h1, h2, h3, h4.mono hm⟩)
  constructor
  · exact h.phi_ok
  · exact h.le_next
  · intro b v x hx
    have := h.ent b v x hx
    exact ⟨this.1, this.2.1, this.2.2.1, hent _ _ _ this.2.2.2⟩
  · exact h.defs_none
  · intro b k v hpos hd
    obtain ⟨y, h1, h2⟩ := h.defs_ok b k v hpos hd
    exact ⟨y, h1, h2.mono hm⟩
  · exact h.defs_store
  · intro x ph' i a q hx ha hne hq ho
    obtain ⟨y, h1, h2⟩ := h.args_ok x ph' i a q hx ha hne hq ho
    exact ⟨y, h1, h2.mono hm⟩
  · intro x ph' hx hc a ha
    exact (h.copy_ok x ph' hx hc a ha).mono hm
  · exact h.status
  · exact h.open_ok
  · exact h.gen_ok
  · exact h.nodup
  · intro b' hs
    have hs : (if b' = b then true else st.isSealed b') = true := hs
    split at hs
    · rename_i e; subst e
      exact ⟨by simp [posDone], hb⟩
    · exact h.isSealed b' hs
  · intro e he
    obtain ⟨b', k', v', y, h3, h4, h5, h6⟩ := h.loads_ok e he
    exact ⟨b', k', v', y, h3, h4, h5, h6.mono hm⟩
  · exact h.loads_all

theorem Inv.begin {st : St} {E : Ent} {S : List Id} {pre : List Block} {b : Block} (hb : b ∉ pre)
    (h : Inv P fresh st E (posDone P pre) S) : Inv P fresh st E (posAt P pre b 0) S := by
  have hn : posDone P pre b = none := by simp [posDone, hb]
  have hself := posAt_self (P := P) (k := 0) hb
  have hother : ∀ b', b' ≠ b → posAt P pre b 0 b' = posDone P pre b' := by
    intro b' hne; simp [posAt, posDone, hne]
  constructor
  · exact h.phi_ok
  · exact h.le_next
  · exact h.ent
  · intro b' v hp
    have hne : b' ≠ b := by rintro rfl; rw [hself] at hp; cases hp
    rw [hother b' hne] at hp
    exact h.defs_none b' v hp
  · intro b' k v hp hd
    by_cases hc : b' = b
    · subst hc; exact absurd (h.defs_none b' v hn) hd
    · rw [hother b' hc] at hp
      exact h.defs_ok b' k v hp hd
  · intro b' k v hp hl
    by_cases hc : b' = b
    · subst hc
      rw [hself] at hp; cases hp
      exact absurd rfl hl
    · rw [hother b' hc] at hp
      exact h.defs_store b' k v hp hl
  · exact h.args_ok
  · exact h.copy_ok
  · exact h.status
  · exact h.open_ok
  · exact h.gen_ok
  · exact h.nodup
  · intro b' hs
    have := h.isSealed b' hs
    have hne : b' ≠ b := by
      rintro rfl
      rw [hn] at this
      cases this.1
    rw [hother b' hne]
    exact this
  · exact h.loads_ok
  · intro b' k j r v hp hj hl
    by_cases hc : b' = b
    · subst hc
      rw [hself] at hp; cases hp
      omega
    · rw [hother b' hc] at hp
      exact h.loads_all b' k j r v hp hj hl

theorem procBlocks_clob {fuel : Nat} : ∀ {bs : List Block} {st st' : St},
    procBlocks P fuel bs st = some st' → st'.clobbered = false → st.clobbered = false
  | [], st, st', h, hc => by cases h; exact hc
  | b :: bs, st, st', h, hc => by
    simp only [procBlocks] at h
    split at h
    · cases h
    · rename_i st1 hr
      have h1 : (sealBlock st1 b).clobbered = false := procBlocks_clob h hc
      exact procInsts_clob hr h1

theorem procBlocks_ok (hV : Valid P fresh) (hf0 : fresh ≠ 0) {fuel : Nat} :
    ∀ {bs pre : List Block} {st st' : St} {E : Ent}, P.order = pre ++ bs →
    Inv P fresh st E (posDone P pre) [] → (∀ x ∈ pre, st.isSealed x = true) →
    procBlocks P fuel bs st = some st' → st'.clobbered = false →
    ∃ E', Inv P fresh st' E' (posDone P P.order) [] ∧ ∀ x ∈ P.order, st'.isSealed x = true
  | [], pre, st, st', E, ho, h, hs, hr, hc => by
    cases hr
    simp at ho
    rw [ho]
    exact ⟨E, h, hs⟩
  | b :: bs, pre, st, st', E, ho, h, hs, hr, hc => by
    have hb : b ∉ pre := by
      have := hV.nodup
      rw [ho, List.nodup_append] at this
      intro hm
      exact this.2.2 b hm b (by simp) rfl
    have hbo : b ∈ P.order := by rw [ho]; simp
    simp only [procBlocks] at hr
    split at hr
    · cases hr
    · rename_i st1 hr1
      have hc1 : st1.clobbered = false := by
        have h1 : (sealBlock st1 b).clobbered = false := procBlocks_clob hr hc
        exact h1
      obtain ⟨E1, i1, s1⟩ := procInsts_ok hV hf0 ho hb (done := []) (by simp) (h.begin hb) hr1 hc1
      rw [posAt_len hb] at i1
      refine procBlocks_ok hV hf0 (pre := pre ++ [b]) (by rw [ho]; simp) (i1.sealB hbo) ?_ hr hc
      intro x hx
      show (if x = b then true else st1.isSealed x) = true
      split
      · rfl
      · rename_i hne
        rw [s1]
        exact hs x (by simpa [hne] using hx)

theorem start_ok (fresh : Id) : Inv P fresh (start fresh) (fun _ _ => none) (posDone P []) [] := by
  constructor
  · intro p ph hp; cases hp
  · exact Nat.le_refl _
  · intro b v x h; cases h
  · intros; rfl
  · intro b k v h; simp [posDone] at h
  · intro b k v h; simp [posDone] at h
  · intro p ph i a q hp; cases hp
  · intro p ph hp; cases hp
  · intro p ph hp; cases hp
  · intro p hp; rcases hp with hp | hp <;> cases hp
  · intro p hp; cases hp
  · simp [start]
  · intro b h; cases h
  · intro e h; cases h
  · intro b k j r v h; simp [posDone] at h

/-! ## The last phase -/

/-- `incomplete_phis_.pop` -/
def popQueue (st : St) (q : List Id) : St := { st with queue := q }

theorem Inv.pop {st : St} {E : Ent} {pos : Block → Option Nat} {p : Id} {q : List Id}
    (h : Inv P fresh st E pos []) (hq : st.queue = p :: q) : Inv P fresh (popQueue st q) E pos [p] := by
  have hm : Mono st (popQueue st q) := fun x ph hp _ => ⟨ph, hp, rfl⟩
  have hext : Ext st (popQueue st q) := ⟨fun x ph hp => ⟨ph, hp, Same.refl _ _⟩, rfl⟩
  constructor
  · exact h.phi_ok
  · exact h.le_next
  · intro b v x hx
    have := h.ent b v x hx
    exact ⟨this.1, this.2.1, this.2.2.1, this.2.2.2.mono (fun _ _ _ e => e) hext⟩
  · exact h.defs_none
  · intro b k v hpos hd
    obtain ⟨y, h1, h2⟩ := h.defs_ok b k v hpos hd
    exact ⟨y, h1, h2.mono hm⟩
  · exact h.defs_store
  · intro x ph' i a q hx ha hne hq ho
    obtain ⟨y, h1, h2⟩ := h.args_ok x ph' i a q hx ha hne hq ho
    exact ⟨y, h1, h2.mono hm⟩
  · intro x ph' hx hc a ha
    exact (h.copy_ok x ph' hx hc a ha).mono hm
  · intro x ph' hx
    rcases h.status x ph' hx with h1 | h1 | h1
    · cases h1
    · rw [hq] at h1
      rcases List.mem_cons.1 h1.1 with e | h2
      · exact .inl (by simp [e])
      · exact .inr (.inl ⟨h2, h1.2⟩)
    · exact .inr (.inr h1)
  · intro x hx
    apply h.open_ok x
    right
    rw [hq]
    rcases hx with hx | hx
    · simp at hx; simp [hx]
    · exact List.mem_cons_of_mem _ hx
  · exact h.gen_ok
  · have := h.nodup
    rw [hq] at this
    exact this
  · exact h.isSealed
  · intro e he
    obtain ⟨b', k', v', y, h3, h4, h5, h6⟩ := h.loads_ok e he
    exact ⟨b', k', v', y, h3, h4, h5, h6.mono hm⟩
  · exact h.loads_all

theorem fillArgs_clob {rec : Block → St → Option (Id × St)} (hrec : Clob rec) {v : Var} {p : Id} :
    ∀ {bs : List Block} {i : Nat} {st st' : St}, fillArgs P rec v p bs i st = some st' →
    st'.clobbered = false → st.clobbered = false
  | [], i, st, st', h, hc => by cases h; exact hc
  | b :: bs, i, st, st', h, hc => by
    simp only [fillArgs] at h
    split at h
    · cases h
    · split at h
      · split at h
        · split at h
          · cases h
          · rename_i a st1 hr
            have h1 := fillArgs_clob hrec h hc
            exact hrec _ _ _ _ hr h1
        · have h1 := fillArgs_clob hrec h hc
          exact h1
      · exact fillArgs_clob hrec h hc

theorem fillArgs_ok {pos : Block → Option Nat} {rec : Block → St → Option (Id × St)} {v : Var}
    (hV : Valid P fresh)
    (hrec : Finds P fresh pos v rec) (hcl : Clob rec) {S : List Id} {p : Id} :
    ∀ {bs done : List Block} {st st' : St} {E : Ent} {ph : Phi},
    Inv P fresh st E pos (p :: S) → st.phis p = some ph → ph.var = v →
    P.preds ph.bb = done ++ bs → ph.args.length = (P.preds ph.bb).length →
    (∀ (j : Nat) (a : Id), j < done.length → ph.args[j]? = some a → a ≠ 0) →
    (∀ x ∈ P.order, st.isSealed x = true) →
    fillArgs P rec v p bs done.length st = some st' → st'.clobbered = false →
    ∃ E' ph', Inv P fresh st' E' pos (p :: S) ∧ st'.phis p = some ph' ∧ Full P ph' ∧
      st'.isSealed = st.isSealed
  | [], done, st, st', E, ph, h, hp, hv, hpr, hlen, hnz, hs, hr, hc => by
    cases hr
    refine ⟨E, ph, h, hp, ⟨hlen, fun a ha => ?_⟩, rfl⟩
    obtain ⟨j, hj⟩ := List.getElem?_of_mem ha
    refine hnz j a ?_ hj
    have := (List.getElem?_eq_some_iff.1 hj).1
    rw [hlen, hpr] at this
    simpa using this
  | b :: bs, done, st, st', E, ph, h, hp, hv, hpr, hlen, hnz, hs, hr, hc => by
    have hget : (P.preds ph.bb)[done.length]? = some b := by rw [hpr]; simp
    have hil : done.length < ph.args.length := by rw [hlen, hpr]; simp
    -- one argument is set
    have put : ∀ (s1 : St) (E1 : Ent) (ph1 : Phi) (a : Id), Inv P fresh s1 E1 pos (p :: S) →
        s1.phis p = some ph1 → Same s1 ph ph1 → a ≠ 0 →
        (b ∈ P.order → ∃ y, reaching P E1 v (b, (P.insts b).length) = some y ∧ Eqv s1 a y) →
        s1.isSealed = st.isSealed →
        fillArgs P rec v p bs (done.length + 1)
          (modPhi s1 p fun ph => { ph with args := ph.args.set done.length a }) = some st' →
        ∃ E' ph', Inv P fresh st' E' pos (p :: S) ∧ st'.phis p = some ph' ∧ Full P ph' ∧
          st'.isSealed = st.isSealed := by
      intro s1 E1 ph1 a i1 hp1 s hne hy hsl hrr
      obtain ⟨h1, h2, h3⟩ := i1.modOpen hp1 (by simp)
        (fun ph => { ph with args := ph.args.set done.length a }) rfl rfl rfl
        (by
          intro i c q hcq hcne hq ho
          simp only [List.getElem?_set] at hcq
          split at hcq
          · rename_i e
            subst e
            rw [s.bb, hget] at hq
            cases hq
            split at hcq
            · cases hcq
              rw [s.var, hv]
              exact hy ho
            · cases hcq
          · exact i1.args_ok p ph1 i c q hp1 hcq hcne hq ho)
      obtain ⟨E', ph', i', hp', hf', hs'⟩ := fillArgs_ok hV hrec hcl (bs := bs) (done := done ++ [b]) h1 h3
        (s.var.trans hv) (by simp only; rw [s.bb, hpr]; simp)
        (by simp only [List.length_set]; rw [s.len, hlen, s.bb])
        (by
          intro j c hj hcj
          simp only [List.getElem?_set] at hcj
          split at hcj
          · split at hcj
            · cases hcj; exact hne
            · cases hcj
          · rename_i hjn
            have hj' : j < done.length := by
              simp at hj; omega
            have hjl : j < ph.args.length := by omega
            have := s.args j _ c (List.getElem?_eq_getElem hjl) hcj
            exact fun e => hnz j _ hj' (List.getElem?_eq_getElem hjl) (this.1.2 e))
        (by intro x hx; show s1.isSealed x = true; rw [hsl]; exact hs x hx)
        (by simpa using hrr) hc
      exact ⟨E', ph', i', hp', hf', hs'.trans hsl⟩
    simp only [fillArgs, hp] at hr
    split at hr
    · split at hr
      · rename_i hsb
        split at hr
        · cases hr
        · rename_i a st1 ha
          have hc1 : st1.clobbered = false := by
            have := fillArgs_clob hcl hr hc
            exact this
          obtain ⟨E1, i1, e1, x1, hne, y, hy, hay⟩ := hrec b st a st1 E _ h hsb ha hc1
          obtain ⟨ph1, hp1, s1⟩ := x1.phis p ph hp
          exact put st1 E1 ph1 a i1 hp1 s1 hne (fun _ => ⟨y, hy, hay⟩) x1.isSealed hr
      · rename_i hsb
        exact put st E ph (P.undef v) h hp (Same.refl _ _) (hV.undef_id v).1
          (fun ho => absurd (hs b ho) hsb) rfl hr
    · rename_i hnz0
      refine fillArgs_ok hV hrec hcl (bs := bs) (done := done ++ [b]) h hp hv (by rw [hpr]; simp) hlen ?_ hs
        (by simpa using hr) hc
      intro j a hj ha
      by_cases hjd : j = done.length
      · subst hjd
        intro e
        subst e
        apply hnz0
        rw [List.getD_eq_getElem?_getD, ha]
        rfl
      · refine hnz j a ?_ ha
        simp at hj
        omega

theorem finalizePhi_clob {fuel : Nat} {p : Id} {st st' : St} (h : finalizePhi P fuel p st = some st')
    (hc : st'.clobbered = false) : st.clobbered = false := by
  unfold finalizePhi at h
  split at h
  · cases h
  · split at h
    · cases h
    · rename_i st1 hf
      simp only [Option.map_eq_some_iff] at h
      obtain ⟨r, h1, h2⟩ := h
      have h3 := keep_clob (p := p) (r := r) (by rw [h2]; exact hc)
      have h4 := tryRemove_clob (x := r.1) (st' := r.2) h1 h3
      exact fillArgs_clob (reach_clob fuel) hf h4

theorem finalizePhi_ok (hV : Valid P fresh) (hf0 : fresh ≠ 0) {fuel : Nat} {pos : Block → Option Nat}
    (hpos : PosOK P pos) {p : Id} {st st' : St} {E : Ent} {ph : Phi} (h : Inv P fresh st E pos [p])
    (hp : st.phis p = some ph) (hlen : ph.args.length = (P.preds ph.bb).length)
    (hs : ∀ x ∈ P.order, st.isSealed x = true) (hr : finalizePhi P fuel p st = some st')
    (hc : st'.clobbered = false) :
    ∃ E', Inv P fresh st' E' pos [] ∧ st'.isSealed = st.isSealed := by
  unfold finalizePhi at hr
  rw [hp] at hr
  simp only at hr
  split at hr
  · cases hr
  · rename_i st1 hfl
    simp only [Option.map_eq_some_iff] at hr
    obtain ⟨r, h1, h2⟩ := hr
    have h3 := keep_clob (p := p) (r := r) (by rw [h2]; exact hc)
    have h4 := tryRemove_clob (x := r.1) (st' := r.2) h1 h3
    have hrec : Finds P fresh pos ph.var (reach P ph.var fuel) := by
      intro b' st x st' E S hi hs hr hc
      obtain ⟨h1, h2⟩ := hi.isSealed b' hs
      exact reach_ok hV hf0 hpos fuel b' _ st x st' E S hi h1 h2 hr hc
    obtain ⟨E1, ph1, i1, hp1, hf1, hs1⟩ := fillArgs_ok hV hrec (reach_clob fuel) (done := []) h hp rfl
      (by simp) hlen (by intro j a hj; simp at hj) hs hfl h4
    obtain ⟨h5, h6, h7⟩ := i1.modOpen hp1 (by simp) (fun ph => { ph with complete := true }) rfl rfl rfl
      (fun i a q ha hne hq ho => i1.args_ok p ph1 i a q hp1 ha hne hq ho)
    obtain ⟨h8, h9, _, _⟩ := settle_ok (x := (keep p r).1) (st' := st') hf0 h5 h7 hf1
      (by rw [h1, Option.map_some]; congr 1; exact Prod.ext rfl h2) hc
    exact ⟨E1, h8, (h9.isSealed.trans h6.isSealed).trans hs1⟩

theorem finalizeAll_clob {fuel : Nat} : ∀ {n : Nat} {st st' : St}, finalizeAll P fuel n st = some st' →
    st'.clobbered = false → st.clobbered = false
  | 0, st, st', h, hc => by
    simp only [finalizeAll] at h
    split at h
    · cases h; exact hc
    · cases h
  | n + 1, st, st', h, hc => by
    simp only [finalizeAll] at h
    split at h
    · cases h; exact hc
    · split at h
      · cases h
      · rename_i st1 hr
        have := finalizePhi_clob hr (finalizeAll_clob h hc)
        exact this

theorem finalizeAll_ok (hV : Valid P fresh) (hf0 : fresh ≠ 0) {fuel : Nat} {pos : Block → Option Nat}
    (hpos : PosOK P pos) : ∀ {n : Nat} {st st' : St} {E : Ent}, Inv P fresh st E pos [] →
    (∀ x ∈ P.order, st.isSealed x = true) → finalizeAll P fuel n st = some st' →
    st'.clobbered = false → ∃ E', Inv P fresh st' E' pos [] ∧ st'.queue = []
  | 0, st, st', E, h, hs, hr, hc => by
    simp only [finalizeAll] at hr
    split at hr
    · rename_i hq
      cases hr
      exact ⟨E, h, by simpa using hq⟩
    · cases hr
  | n + 1, st, st', E, h, hs, hr, hc => by
    simp only [finalizeAll] at hr
    split at hr
    · rename_i hq
      cases hr
      exact ⟨E, h, hq⟩
    · rename_i p q hq
      split at hr
      · cases hr
      · rename_i st1 hr1
        have hc1 := finalizeAll_clob hr hc
        obtain ⟨ph, hp, _⟩ := h.open_ok p (.inr (by rw [hq]; simp))
        have hpop := h.pop hq
        have hlen : ph.args.length = (P.preds ph.bb).length := by
          rcases h.status p ph hp with h1 | h1 | h1
          · cases h1
          · exact h1.2
          · exact h1.1.1
        obtain ⟨E1, i1, s1⟩ := finalizePhi_ok hV hf0 hpos hpop hp hlen hs hr1 hc1
        exact finalizeAll_ok hV hf0 hpos i1 (by intro x hx; rw [s1]; exact hs x hx) hr hc

/-- The state after a run without overwritten stores. -/
theorem run_ok (hV : Valid P fresh) (hf0 : fresh ≠ 0) {fuel : Nat} {st : St}
    (hr : run P fuel fresh = some st) (hc : st.clobbered = false) :
    ∃ E, Inv P fresh st E (posDone P P.order) [] ∧ st.queue = [] := by
  unfold run at hr
  simp only [Option.bind_eq_some_iff] at hr
  obtain ⟨st1, h1, h2⟩ := hr
  obtain ⟨E1, i1, s1⟩ := procBlocks_ok hV hf0 (pre := []) (by simp) (start_ok fresh) (by simp) h1
    (finalizeAll_clob h2 hc)
  exact finalizeAll_ok hV hf0 (posOK_done hV (post := []) (by simp)) i1 s1 h2 hc

end

end Verif.Ssa
