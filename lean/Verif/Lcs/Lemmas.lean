import Verif.Lcs.Model
set_option linter.unusedSimpArgs false
set_option linter.unusedVariables false
namespace Verif.Lcs
variable {α : Type}

/-- Element match at a pair of offsets. -/
def M (mt : α → α → Bool) (src dst : List α) (i j : Nat) : Bool :=
  match src[i]?, dst[j]? with
  | some a, some b => mt a b
  | _, _ => false

def L (M : Nat → Nat → Bool) (n m i j : Nat) : Nat :=
  if i < n ∧ j < m then
    if M i j then L M n m (i+1) (j+1) + 1 else max (L M n m (i+1) j) (L M n m i (j+1))
  else 0
termination_by (n - i) + (m - j)

theorem L_oob (Mf : Nat → Nat → Bool) (n m i j) (h : ¬ (i < n ∧ j < m)) : L Mf n m i j = 0 := by
  rw [L, if_neg h]

theorem L_le (Mf : Nat → Nat → Bool) (n m i j) : L Mf n m i j ≤ n - i ∧ L Mf n m i j ≤ m - j := by
  fun_induction L Mf n m i j <;> omega

structure Good (Mf : Nat → Nat → Bool) (n m : Nat) (t : Table) : Prop where
  ok : ∀ i j l b, t i j = some (l, b) → i < n ∧ j < m ∧ l = L Mf n m i j ∧ b = Mf i j
  cl : ∀ i j l b, t i j = some (l, b) →
      if b then calcOrOob n m t (i+1) (j+1) = true
      else calcOrOob n m t (i+1) j = true ∧ calcOrOob n m t i (j+1) = true

theorem memoLen_good {Mf n m t} (hg : Good Mf n m t) (i j) (h : calcOrOob n m t i j = true) :
    memoLen n m t i j = some (L Mf n m i j) := by
  unfold memoLen
  unfold calcOrOob at h
  cases hb : inBound n m i j
  · have : ¬ (i < n ∧ j < m) := by simpa [inBound] using hb
    simp [L_oob _ _ _ _ _ this]
  · simp only [hb, Bool.not_true, Bool.false_or] at h
    obtain ⟨⟨l, b⟩, hl⟩ := Option.isSome_iff_exists.mp h
    have := hg.ok _ _ _ _ hl
    simp [hl, this.2.2.1]

theorem mark_good {Mf n m t} (hg : Good Mf n m t) (i j len b) (hi : i < n) (hj : j < m)
    (hnone : t i j = none) (hlen : len = L Mf n m i j) (hb : b = Mf i j)
    (hcl : if b then calcOrOob n m t (i+1) (j+1) = true
      else calcOrOob n m t (i+1) j = true ∧ calcOrOob n m t i (j+1) = true)
    (hsz : min n m < 2 ^ 30) :
    ∃ t', mark n m t i j len b = some t' ∧ Good Mf n m t' ∧ (t' i j).isSome ∧
      (∀ a c, (t a c).isSome → (t' a c).isSome) := by
  have hle := L_le Mf n m i j
  have hlt : len % 2 ^ 30 = len := Nat.mod_eq_of_lt (by omega)
  have hin : inBound n m i j = true := by simp [inBound, hi, hj]
  refine ⟨fun a c => if a = i ∧ c = j then some (len, b) else t a c, ?_, ?_, ?_, ?_⟩
  · simp [mark, hin, hnone, hlt]
  · have mono : ∀ a c, calcOrOob n m t a c = true →
        calcOrOob n m (fun a c => if a = i ∧ c = j then some (len, b) else t a c) a c = true := by
      intro a c h
      simp only [calcOrOob, Bool.or_eq_true] at h ⊢
      rcases h with h | h
      · exact Or.inl h
      · right; split
        · rfl
        · exact h
    constructor
    · intro a c l b' h
      split at h
      · rename_i e
        obtain ⟨rfl, rfl⟩ := e
        simp only [Option.some.injEq, Prod.mk.injEq] at h
        exact ⟨hi, hj, h.1 ▸ hlen, h.2 ▸ hb⟩
      · exact hg.ok _ _ _ _ h
    · intro a c l b' h
      split at h
      · rename_i e
        obtain ⟨rfl, rfl⟩ := e
        simp only [Option.some.injEq, Prod.mk.injEq] at h
        rw [← h.2]
        cases b
        · simp at hcl ⊢; exact ⟨mono _ _ hcl.1, mono _ _ hcl.2⟩
        · simp at hcl ⊢; exact mono _ _ hcl
      · have := hg.cl _ _ _ _ h
        cases b'
        · simp at this ⊢; exact ⟨mono _ _ this.1, mono _ _ this.2⟩
        · simp at this ⊢; exact mono _ _ this
  · simp
  · intro a c h
    simp only
    split
    · rfl
    · exact h

theorem calcLoop_spec (mt : α → α → Bool) (src dst : List α)
    (hsz : min src.length dst.length < 2 ^ 30) (t : Table) (st : List (Nat × Nat))
    (hg : Good (M mt src dst) src.length dst.length t)
    (hst : ∀ c ∈ st, c.1 < src.length ∧ c.2 < dst.length) :
    ∃ t', calcLoop mt src dst t st = some t' ∧ Good (M mt src dst) src.length dst.length t' ∧
      (∀ a c, (t a c).isSome → (t' a c).isSome) ∧ (∀ c ∈ st, (t' c.1 c.2).isSome) := by
  fun_induction calcLoop mt src dst t st with
  | case1 t => exact ⟨t, rfl, hg, fun _ _ h => h, by simp⟩
  | case2 t i j st a b hb ha hc ih =>
    obtain ⟨t', h1, h2, h3, h4⟩ := ih hg (fun c hc => hst c (by simp [hc]))
    refine ⟨t', h1, h2, h3, ?_⟩
    intro c hcc
    rcases List.mem_cons.mp hcc with rfl | hcc
    · exact h3 _ _ hc
    · exact h4 c hcc
  | case3 t i j st n m a b hb ha hc hmt hn hml =>
    rw [memoLen_good hg _ _ hn] at hml; simp at hml
  | case4 t i j st n m a b hb ha hc hmt hn l hml hmk =>
    exfalso
    rw [memoLen_good hg _ _ hn] at hml
    have hM : M mt src dst i j = true := by simp [M, ha, hb, hmt]
    have hij := hst (i, j) (by simp)
    obtain ⟨t', h1, _⟩ := mark_good hg i j (l+1) true hij.1 hij.2 (by simpa using hc)
      (by rw [L, if_pos hij, if_pos hM]; simp at hml; omega) hM.symm (by simpa using hn) hsz
    rw [hmk] at h1; simp at h1
  | case5 t i j st n m a b hb ha hc hmt hn l hml t1 hmk ih =>
    rw [memoLen_good hg _ _ hn] at hml
    have hM : M mt src dst i j = true := by simp [M, ha, hb, hmt]
    have hij := hst (i, j) (by simp)
    obtain ⟨t', h1, h2, h3, h4⟩ := mark_good hg i j (l+1) true hij.1 hij.2 (by simpa using hc)
      (by rw [L, if_pos hij, if_pos hM]; simp at hml; omega) hM.symm (by simpa using hn) hsz
    rw [hmk] at h1; simp only [Option.some.injEq] at h1; subst h1
    obtain ⟨t', k1, k2, k3, k4⟩ := ih h2 (fun c hc => hst c (by simp [hc]))
    refine ⟨t', ?_, k2, fun a c h => k3 _ _ (h4 _ _ h), ?_⟩
    · rw [← k1]
    · intro c hcc
      rcases List.mem_cons.mp hcc with rfl | hcc
      · exact k3 _ _ h3
      · exact k4 c hcc
  | case6 t i j st n m a b hb ha hc hmt hn ih =>
    have hn1 : i + 1 < src.length ∧ j + 1 < dst.length := by
      simp only [calcOrOob, Bool.or_eq_true, not_or, Bool.not_eq_true, inBound] at hn
      simpa using hn.1
    obtain ⟨t', h1, h2, h3, h4⟩ := ih hg (by
      intro c hcc
      rcases List.mem_cons.mp hcc with rfl | hcc
      · exact hn1
      · exact hst c hcc)
    exact ⟨t', h1, h2, h3, fun c hcc => h4 c (List.mem_cons_of_mem _ hcc)⟩
  | case7 t i j st n m a b hb ha hc hmt hbb l1 l2 hml2 hml1 hmk =>
    exfalso
    rw [Bool.and_eq_true] at hbb
    rw [memoLen_good hg _ _ hbb.1] at hml1
    rw [memoLen_good hg _ _ hbb.2] at hml2
    simp only [Option.some.injEq] at hml1 hml2
    have hM : M mt src dst i j = false := by simpa [M, ha, hb] using hmt
    have hij := hst (i, j) (by simp)
    obtain ⟨t', h1, _⟩ := mark_good hg i j (max l1 l2) false hij.1 hij.2 (by simpa using hc)
      (by rw [L, if_pos hij, if_neg (by simp [hM]), hml1, hml2]) hM.symm (by simpa using hbb) hsz
    rw [hmk] at h1; simp at h1
  | case8 t i j st n m a b hb ha hc hmt hbb l1 l2 hml2 hml1 t1 hmk ih =>
    rw [Bool.and_eq_true] at hbb
    rw [memoLen_good hg _ _ hbb.1] at hml1
    rw [memoLen_good hg _ _ hbb.2] at hml2
    simp only [Option.some.injEq] at hml1 hml2
    have hM : M mt src dst i j = false := by simpa [M, ha, hb] using hmt
    have hij := hst (i, j) (by simp)
    obtain ⟨t', h1, h2, h3, h4⟩ := mark_good hg i j (max l1 l2) false hij.1 hij.2 (by simpa using hc)
      (by rw [L, if_pos hij, if_neg (by simp [hM]), hml1, hml2]) hM.symm (by simpa using hbb) hsz
    rw [hmk] at h1; simp only [Option.some.injEq] at h1; subst h1
    obtain ⟨t', k1, k2, k3, k4⟩ := ih h2 (fun c hc => hst c (by simp [hc]))
    refine ⟨t', ?_, k2, fun a c h => k3 _ _ (h4 _ _ h), ?_⟩
    · rw [← k1]
    · intro c hcc
      rcases List.mem_cons.mp hcc with rfl | hcc
      · exact k3 _ _ h3
      · exact k4 c hcc
  | case9 t i j st n m a b hb ha hc hmt hbb hno =>
    rw [Bool.and_eq_true] at hbb
    exact absurd (memoLen_good hg _ _ hbb.2) (hno _ _ (memoLen_good hg _ _ hbb.1))
  | case10 t i j st n m a b hb ha hc hmt hbb hd ih =>
    have hn1 : i + 1 < src.length ∧ j < dst.length := by
      have hs : calcOrOob src.length dst.length t (i + 1) j = false := by
        simp only [Bool.and_eq_true, not_and, Bool.not_eq_true] at hbb
        cases h : calcOrOob src.length dst.length t (i + 1) j
        · rfl
        · have := hbb h; rw [hd] at this; simp at this
      simp only [calcOrOob, inBound, Bool.or_eq_false_iff] at hs
      simpa using hs.1
    obtain ⟨t', h1, h2, h3, h4⟩ := ih hg (by
      intro c hcc
      rcases List.mem_cons.mp hcc with rfl | hcc
      · exact hn1
      · exact hst c hcc)
    exact ⟨t', h1, h2, h3, fun c hcc => h4 c (List.mem_cons_of_mem _ hcc)⟩
  | case11 t i j st n m a b hb ha hc hmt hbb hd hs ih =>
    have hn1 : i < src.length ∧ j + 1 < dst.length := by
      simp only [calcOrOob, inBound, Bool.or_eq_true, not_or, Bool.not_eq_true] at hd
      simpa using hd.1
    obtain ⟨t', h1, h2, h3, h4⟩ := ih hg (by
      intro c hcc
      rcases List.mem_cons.mp hcc with rfl | hcc
      · exact hn1
      · exact hst c hcc)
    exact ⟨t', h1, h2, h3, fun c hcc => h4 c (List.mem_cons_of_mem _ hcc)⟩
  | case12 t i j st n m a b hb ha hc hmt hbb hd hs ih =>
    have hn1 : i < src.length ∧ j + 1 < dst.length := by
      simp only [calcOrOob, inBound, Bool.or_eq_true, not_or, Bool.not_eq_true] at hd
      simpa using hd.1
    have hn2 : i + 1 < src.length ∧ j < dst.length := by
      simp only [calcOrOob, inBound, Bool.or_eq_true, not_or, Bool.not_eq_true] at hs
      simpa using hs.1
    obtain ⟨t', h1, h2, h3, h4⟩ := ih hg (by
      intro c hcc
      rcases List.mem_cons.mp hcc with rfl | hcc
      · exact hn1
      · rcases List.mem_cons.mp hcc with rfl | hcc
        · exact hn2
        · exact hst c hcc)
    exact ⟨t', h1, h2, h3, fun c hcc =>
      h4 c (List.mem_cons_of_mem _ (List.mem_cons_of_mem _ hcc))⟩
  | case13 t i j st hno =>
    exfalso
    have hij := hst (i, j) (by simp)
    exact hno _ _ (List.getElem?_eq_getElem hij.1) (List.getElem?_eq_getElem hij.2)

/-- Increasing chains of matching offset pairs from `(i, j)` on. -/
def Chain (Mf : Nat → Nat → Bool) (n m : Nat) : Nat → Nat → List (Nat × Nat) → Prop
  | _, _, [] => True
  | i, j, p :: ps => i ≤ p.1 ∧ j ≤ p.2 ∧ p.1 < n ∧ p.2 < m ∧ Mf p.1 p.2 = true ∧
      Chain Mf n m (p.1 + 1) (p.2 + 1) ps

theorem Chain.mono {Mf n m i j i' j' ps} (h : Chain Mf n m i j ps) (hi : i' ≤ i) (hj : j' ≤ j) :
    Chain Mf n m i' j' ps := by
  cases ps with
  | nil => trivial
  | cons p ps => obtain ⟨h1, h2, h3⟩ := h; exact ⟨by omega, by omega, h3⟩

theorem Chain.le_L {Mf n m} (i j : Nat) (ps) (h : Chain Mf n m i j ps) : ps.length ≤ L Mf n m i j := by
  fun_induction L Mf n m i j generalizing ps with
  | case1 i j hij hM ih =>
    cases ps with
    | nil => simp
    | cons p ps =>
      obtain ⟨h1, h2, h3, h4, h5, h6⟩ := h
      have := ih ps (h6.mono (by omega) (by omega))
      simp; omega
  | case2 i j hij hM ih2 ih1 =>
    cases ps with
    | nil => simp
    | cons p ps =>
      obtain ⟨h1, h2, h3, h4, h5, h6⟩ := h
      by_cases hi : i + 1 ≤ p.1
      · have := ih2 (p :: ps) ⟨hi, h2, h3, h4, h5, h6⟩
        omega
      · by_cases hj : j + 1 ≤ p.2
        · have := ih1 (p :: ps) ⟨h1, hj, h3, h4, h5, h6⟩
          omega
        · have e1 : p.1 = i := by omega
          have e2 : p.2 = j := by omega
          rw [e1, e2] at h5; exact absurd h5 hM
  | case3 i j hij =>
    cases ps with
    | nil => simp
    | cons p ps => obtain ⟨h1, h2, h3, h4, h5, h6⟩ := h; exact absurd ⟨by omega, by omega⟩ hij

theorem retrieve_spec {Mf n m t} (hg : Good Mf n m t) (i j sm dm)
    (hc : calcOrOob n m t i j = true) (hsm : sm.length = n) (hdm : dm.length = m) :
    ∃ sm' dm' ps, retrieveLoop n m t i j sm dm = some (sm', dm') ∧ sm'.length = n ∧ dm'.length = m ∧
      Chain Mf n m i j ps ∧ ps.length = L Mf n m i j ∧
      (∀ k, sm'[k]? = some true ↔ sm[k]? = some true ∨ k ∈ ps.map (·.1)) ∧
      (∀ k, dm'[k]? = some true ↔ dm[k]? = some true ∨ k ∈ ps.map (·.2)) := by
  fun_induction retrieveLoop n m t i j sm dm with
  | case1 i j sm dm hij hno =>
    simp [calcOrOob, inBound, hij, hno] at hc
  | case2 i j sm dm hij l hl ih =>
    have h1 := hg.ok _ _ _ _ hl
    have h2 := hg.cl _ _ _ _ hl
    simp only [if_true] at h2
    obtain ⟨sm', dm', ps, k1, k2, k3, k4, k5, k6, k7⟩ := ih h2 (by simpa using hsm) (by simpa using hdm)
    refine ⟨sm', dm', (i, j) :: ps, k1, k2, k3, ⟨by simp, by simp, hij.1, hij.2, h1.2.2.2.symm, k4⟩, ?_, ?_, ?_⟩
    · rw [L, if_pos hij, if_pos h1.2.2.2.symm]; simp [k5]
    · intro k; rw [k6, List.getElem?_set]
      by_cases e : i = k
      · subst e; simp [hsm, hij.1]
      · have e' : ¬ k = i := fun h => e h.symm
        simp only [if_neg e, List.map_cons, List.mem_cons, e', false_or]
    · intro k; rw [k7, List.getElem?_set]
      by_cases e : j = k
      · subst e; simp [hdm, hij.2]
      · have e' : ¬ k = j := fun h => e h.symm
        simp only [if_neg e, List.map_cons, List.mem_cons, e', false_or]
  | case3 i j sm dm hij l hl l1 l2 hm2 hm1 hge ih =>
    have h1 := hg.ok _ _ _ _ hl
    have h2 := hg.cl _ _ _ _ hl
    simp only [if_false, Bool.false_eq_true] at h2
    rw [memoLen_good hg _ _ h2.1] at hm1
    rw [memoLen_good hg _ _ h2.2] at hm2
    simp only [Option.some.injEq] at hm1 hm2
    obtain ⟨sm', dm', ps, k1, k2, k3, k4, k5, k6, k7⟩ := ih h2.1 hsm hdm
    refine ⟨sm', dm', ps, k1, k2, k3, k4.mono (by omega) (by omega), ?_, k6, k7⟩
    rw [L, if_pos hij, if_neg (by rw [← h1.2.2.2]; simp)]; omega
  | case4 i j sm dm hij l hl l1 l2 hm2 hm1 hge ih =>
    have h1 := hg.ok _ _ _ _ hl
    have h2 := hg.cl _ _ _ _ hl
    simp only [if_false, Bool.false_eq_true] at h2
    rw [memoLen_good hg _ _ h2.1] at hm1
    rw [memoLen_good hg _ _ h2.2] at hm2
    simp only [Option.some.injEq] at hm1 hm2
    obtain ⟨sm', dm', ps, k1, k2, k3, k4, k5, k6, k7⟩ := ih h2.2 hsm hdm
    refine ⟨sm', dm', ps, k1, k2, k3, k4.mono (by omega) (by omega), ?_, k6, k7⟩
    rw [L, if_pos hij, if_neg (by rw [← h1.2.2.2]; simp)]; omega
  | case5 i j sm dm hij l hl hno =>
    have h2 := hg.cl _ _ _ _ hl
    simp only [if_false, Bool.false_eq_true] at h2
    exact absurd (memoLen_good hg _ _ h2.2) (hno _ _ (memoLen_good hg _ _ h2.1))
  | case6 i j sm dm hij =>
    exact ⟨sm, dm, [], rfl, hsm, hdm, trivial, by simp [L_oob _ _ _ _ _ hij], by simp, by simp⟩

end Verif.Lcs
