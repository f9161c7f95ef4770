import Verif.CombineAccess.Whole
/-
C75: combining access chains keeps where every pointer points.
-/
set_option linter.unusedSimpArgs false
set_option linter.unusedVariables false

namespace Verif.CombineAccess

open Spec

/-! ### Logical addressing: the whole pass -/

/-- Every pointer points where it did: values which the instructions of the module compute
are also, with values for the new ids, those the instructions of the result compute. -/
theorem addresses_kept {L : Layout} : ∀ (ds : List Id) {m : Mod} {V : Vals}, Right L m V →
    Fresh m → Logical m →
    ∃ V', V'.addr = V.addr ∧ (∀ x, x < m.next → V'.bits x = V.bits x) ∧
      Right L (process m ds) V' := by
  intro ds
  induction ds with
  | nil => intro m V hR _ _; exact ⟨V, rfl, fun _ _ => rfl, hR⟩
  | cons d ds ih =>
    intro m V hR hF hL
    obtain ⟨V1, ha, hb, hR1⟩ := combine_right hR hF d (hL.steps L V d)
    obtain ⟨V2, ha2, hb2, hR2⟩ := ih hR1 (combine_fresh hF d) (combine_logical hL d)
    exact ⟨V2, ha2.trans ha, fun x hx =>
      (hb2 x (Nat.lt_of_lt_of_le hx (combine_next m d))).trans (hb x hx), hR2⟩

/-- The result is valid: structures are indexed by constants, and each chain leads to the
type its pointer type names. -/
theorem types_kept : ∀ (ds : List Id) {m : Mod}, Typed m → Fresh m → Logical m →
    Typed (process m ds) := by
  intro ds
  induction ds with
  | nil => intro m hT _ _; exact hT
  | cons d ds ih =>
    intro m hT hF hL
    exact ih (combine_typed hT hF d (hL.ends d)) (combine_fresh hF d) (combine_logical hL d)

/-- New ids are new. -/
theorem fresh_kept : ∀ (ds : List Id) {m : Mod}, Fresh m → Fresh (process m ds) := by
  intro ds
  induction ds with
  | nil => intro m hF; exact hF
  | cons d ds ih => intro m hF; exact ih (combine_fresh hF d)

/-! ### Pointer access chains: one instruction -/

/-- With pointer access chains: the address is kept where the element operand steps over the
elements of the array the chain before ends in. Missing: other pointer access chains, see
`struct_indexed_by_sum`, `stride_of_base_lost` and `sum_overflows` below. -/
theorem step_kept_partial {L : Layout} {m : Mod} {V : Vals} (hR : Right L m V) (hF : Fresh m)
    (d : Id) (hS : Steps L m V d) :
    ∃ V', V'.addr = V.addr ∧ (∀ x, x < m.next → V'.bits x = V.bits x) ∧
      Right L (combine m d) V' := combine_right hR hF d hS

/-- With pointer access chains: the result is valid where the chain before ends in an index
of an array. -/
theorem step_typed_partial {m : Mod} (hT : Typed m) (hF : Fresh m) (d : Id)
    (hE : EndsInArray m d) : Typed (combine m d) := combine_typed hT hF d hE

/-! ### What is changed -/

/-- Only the instruction itself is changed, and at most one definition is added. -/
theorem others_kept (m : Mod) (d y : Id) (h : y ≠ d) (hn : y ≠ m.next) :
    (combine m d).defn y = m.defn y ∧ (combine m d).cst y = m.cst y := by
  have hdid := combine_did m d
  generalize combine m d = M at hdid ⊢
  cases hdid with
  | same => exact ⟨rfl, rfl⟩
  | skip => exact ⟨by rw [setDef_get, if_neg h], rfl⟩
  | copy => exact ⟨by rw [setDef_get, if_neg h], rfl⟩
  | app => exact ⟨by rw [setDef_get, if_neg h], rfl⟩
  | sum _ _ _ _ _ hm =>
    obtain ⟨hn', -, -, -, hdef, hcst, -⟩ := combineIndices_shape hm
    have hy := hn'.symm ▸ hn
    exact ⟨by rw [setDef_get, if_neg h]; exact hdef y hy, hcst y hy⟩

/-- The result promises to stay in bounds only where both chains did. -/
theorem in_bounds {m : Mod} {d : Id} {c c' f : Chain} (hd : m.defn d = some (.chain c))
    (hf : m.defn c.base = some (.chain f)) (hF : Fresh m)
    (h : (combine m d).defn d = some (.chain c')) (hi : c'.inb = true) (hb : f.idx ≠ [])
    (hch : c' ≠ c) : c.inb = true ∧ f.inb = true := by
  have hdn : d ≠ m.next := Nat.ne_of_lt (hF.lt hd)
  have hdid := combine_did m d
  generalize combine m d = M at hdid h
  cases hdid with
  | same =>
    rw [hd] at h
    cases h
    exact absurd rfl hch
  | skip hd' hf' hi' =>
    rw [hd] at hd'
    cases hd'
    rw [hf] at hf'
    cases hf'
    exact absurd hi' hb
  | copy => simp [setDef_get] at h
  | app hd' hf' hp hi' =>
    rw [hd] at hd'
    cases hd'
    rw [hf] at hf'
    cases hf'
    simp [setDef_get] at h
    rw [← h] at hi
    simpa [newChain, and_comm] using hi
  | sum hd' hf' hp hi' hc hm =>
    rw [hd] at hd'
    cases hd'
    rw [hf] at hf'
    cases hf'
    simp [setDef_get] at h
    rw [← h] at hi
    simpa [newChain, and_comm] using hi

/-- Only access chains are changed: what is not one stays as it is. -/
theorem nonchain_kept {m : Mod} (hF : Fresh m) (d y : Id)
    (h : ∀ c, m.defn y ≠ some (.chain c)) : ∀ c, (combine m d).defn y ≠ some (.chain c) := by
  intro c'
  have hdid := combine_did m d
  generalize combine m d = M at hdid ⊢
  have hne : ∀ {c}, m.defn d = some (.chain c) → y ≠ d := by
    intro c hd e
    exact h c (e ▸ hd)
  cases hdid with
  | same => exact h c'
  | skip hd => rw [setDef_get, if_neg (hne hd)]; exact h c'
  | copy hd => rw [setDef_get, if_neg (hne hd)]; exact h c'
  | app hd => rw [setDef_get, if_neg (hne hd)]; exact h c'
  | sum hd hf hp hi hc hm =>
    obtain ⟨hn', -, -, -, hdef, -, hch, -⟩ := combineIndices_shape hm
    rw [setDef_get, if_neg (hne hd)]
    by_cases hy : y = m.next
    · rcases hch c' with hh | hh
      · rw [hn'] at hh
        rw [hy]
        exact hh
      · rw [hn', ← hy] at hh
        exact absurd hh (h c')
    · rw [hdef y (hn'.symm ▸ hy)]
      exact h c'

/-! ### What is left alone -/

/-- Chains with an index that is not a 32-bit integer are left alone, as are chains from
them. -/
theorem wide_left {m : Mod} {d : Id} {c f : Chain} (hd : m.defn d = some (.chain c))
    (hf : m.defn c.base = some (.chain f)) {i : Id} (hi : i ∈ c.idx ∨ i ∈ f.idx)
    (hw : m.wide i = true) : combine m d = m := by
  have h : (has64 m c || has64 m f) = true := by
    rw [Bool.or_eq_true]
    rcases hi with hi | hi
    · exact Or.inl (List.any_eq_true.2 ⟨i, hi, hw⟩)
    · exact Or.inr (List.any_eq_true.2 ⟨i, hi, hw⟩)
  unfold combine
  rw [hd]
  simp only [hf, h, if_true]

/-- Chains from a pointer with a stride are left alone. -/
theorem strided_left {m : Mod} {d : Id} {c : Chain} (hd : m.defn d = some (.chain c))
    (hs : m.stride c.base ≠ 0) : combine m d = m := by
  unfold combine
  rw [hd]
  simp only
  split
  · split
    · rfl
    · rfl
  · rfl

/-- A pointer access chain over structures, with an element operand or last index which is
not a constant, is left alone, unless the chain before has only an element operand. -/
theorem struct_left {m : Mod} {d : Id} {c f : Chain} {init rest : List Id} {l e : Id}
    {ms : List Ty} (hT : Typed m) (hd : m.defn d = some (.chain c))
    (hf : m.defn c.base = some (.chain f)) (hp : c.ptr = true) (hi : f.idx = init ++ [l])
    (hc : c.idx = e :: rest) (hst : m.pty c.base = .struct ms)
    (hk : m.cst l = none ∨ m.cst e = none) (hn : f.ptr = false ∨ init ≠ []) :
    combine m d = m := by
  have hty : ∀ (is : List Id) (t u : Ty), reach m t is = some u →
      memberTy t (is.map fun i => match m.cst i with
        | some v => v.toNat
        | none => 0) = some u := by
    intro is
    induction is with
    | nil => intro t u h; simpa [reach, memberTy] using h
    | cons i is ih =>
      intro t u h
      cases t with
      | leaf _ => simp [reach] at h
      | arr t' s =>
        simp only [reach] at h
        exact ih t' u h
      | struct ms' =>
        simp only [reach] at h
        split at h
        · exact absurd h (by simp)
        · rename_i v hv
          split at h
          · exact absurd h (by simp)
          · rename_i t' ht'
            simp only [List.map_cons, memberTy, hv, ht', Option.bind_some]
            exact ih t' u h
  have hind : isStruct (indexedTy m f) = true := by
    have h1 := hty _ _ _ (hT _ _ hf).2
    have h2 : indexedTy m f = some (.struct ms) := by
      rw [← hst]
      exact h1
    rw [h2]
    rfl
  have hlen : (f.ptr && f.idx.length == 1) = false := by
    rcases hn with h | h
    · simp [h]
    · obtain ⟨x, xs, hx⟩ := List.exists_cons_of_ne_nil h
      simp [hi, hx]
  have hnone : combineIndices m f l e = none := by
    unfold combineIndices
    simp only [hind, hlen]
    rcases hk with h | h
    · rw [h]
      simp
    · rw [h]
      cases m.cst l <;> simp
  unfold combine
  rw [hd]
  simp only [hf]
  split
  · rfl
  · split
    · rfl
    · rw [hi]
      simp [hc, append, hp, hnone]

/-! ### What is left -/

theorem combine_flat {m : Mod} (hF : Fresh m) (hL : Logical m) (hP : Plain m) (d : Id)
    (hb : ∀ c f, m.defn d = some (.chain c) → m.defn c.base = some (.chain f) →
      Flat m c.base) : Flat (combine m d) d := by
  unfold combine
  split
  · rename_i c hd
    split
    · rename_i f hf
      have h64 : (has64 m c || has64 m f) = false := by
        simp [has64, hP.1]
      rw [h64]
      simp only [Bool.false_eq_true, if_false, hP.2, ne_eq, not_true_eq_false]
      have hfl := hb c f hd hf f hf
      have hbd : f.base ≠ d := by
        intro e
        rw [e] at hfl
        exact hfl c hd
      split
      · intro c' h g
        rw [setDef_get, if_pos rfl] at h
        cases h
        show (setDef m d _).defn f.base ≠ _
        rw [setDef_get, if_neg hbd]
        exact hfl g
      · split
        · intro c' h
          rw [setDef_get, if_pos rfl] at h
          exact absurd h (by simp)
        · unfold append
          rw [hL _ _ hd]
          simp only [Bool.false_eq_true, if_false]
          intro c' h g
          rw [setDef_get, if_pos rfl] at h
          cases h
          show (setDef m d _).defn f.base ≠ _
          rw [setDef_get, if_neg hbd]
          exact hfl g
    · rename_i hn
      intro c' h
      rw [hd] at h
      cases h
      exact fun f => hn f
  · rename_i hn
    intro c' h
    exact absurd h (hn c')

theorem combine_plain {m : Mod} (hP : Plain m) (d : Id) : Plain (combine m d) := by
  have hdid := combine_did m d
  generalize combine m d = M at hdid ⊢
  cases hdid with
  | same => exact hP
  | skip => exact hP
  | copy => exact hP
  | app => exact hP
  | sum _ _ _ _ _ hm =>
    obtain ⟨hn, -, -, hst, -, -, -, -, hw, hwn⟩ := combineIndices_shape hm
    refine ⟨fun x => ?_, fun x => ?_⟩
    · show Mod.wide _ x = false
      by_cases hx : x = m.next
      · rw [← hn] at hx
        rw [hx]
        exact hwn
      · rw [← hn] at hx
        exact (hw x hx).trans (hP.1 x)
    · exact (congrFun hst x).trans (hP.2 x)

/-- A chain stays flat when another instruction is visited. -/
theorem flat_kept {m : Mod} (hF : Fresh m) {d y : Id} (h : Flat m y) (hyd : y ≠ d) :
    Flat (combine m d) y := by
  intro c hc f hf
  have hyc : m.defn y = some (.chain c) := by
    by_cases hex : ∃ c0, m.defn y = some (.chain c0)
    · obtain ⟨c0, h0⟩ := hex
      have := (others_kept m d y hyd (Nat.ne_of_lt (hF.lt h0))).1
      rw [← this]
      exact hc
    · exact absurd hc (nonchain_kept hF d y (fun c0 h0 => hex ⟨c0, h0⟩) c)
  exact nonchain_kept hF d c.base (h c hyc) f hf

theorem flat_all : ∀ (ds done : List Id) {m : Mod}, Fresh m → Logical m → Plain m →
    (done.reverse ++ ds).Nodup → (∀ y ∈ done, Flat m y) →
    (∀ pre d post, ds = pre ++ d :: post → ∀ c f, m.defn d = some (.chain c) →
      m.defn c.base = some (.chain f) → c.base ∈ done ∨ c.base ∈ pre) →
    ∀ y, y ∈ done ∨ y ∈ ds → Flat (process m ds) y := by
  intro ds
  induction ds with
  | nil =>
    intro done m _ _ _ _ h _ y hy
    rcases hy with hy | hy
    · exact h y hy
    · exact absurd hy (by simp)
  | cons d ds ih =>
    intro done m hF hL hP hnd h ho y hy
    have hddone : d ∉ done := by
      intro hm
      rw [List.nodup_append] at hnd
      exact hnd.2.2 d (by simpa using hm) d (by simp) rfl
    have hdds : d ∉ ds := by
      rw [List.nodup_append] at hnd
      exact (List.nodup_cons.1 hnd.2.1).1
    have hflat : Flat (combine m d) d := by
      refine combine_flat hF hL hP d ?_
      intro c f hd hf
      rcases ho [] d ds rfl c f hd hf with hh | hh
      · exact h _ hh
      · exact absurd hh (by simp)
    refine ih (d :: done) (combine_fresh hF d) (combine_logical hL d) (combine_plain hP d)
      (by simpa using hnd) ?_ ?_ y ?_
    · intro y hy
      rcases List.mem_cons.1 hy with rfl | hy
      · exact hflat
      · exact flat_kept hF (h y hy) (fun e => hddone (e ▸ hy))
    · intro pre x post hsp c f hx hf
      have hxd : x ≠ d := by
        intro e
        apply hdds
        rw [hsp, e]
        simp
      have hxc : m.defn x = some (.chain c) := by
        by_cases hex : ∃ c0, m.defn x = some (.chain c0)
        · obtain ⟨c0, h0⟩ := hex
          have := (others_kept m d x hxd (Nat.ne_of_lt (hF.lt h0))).1
          rw [← this]
          exact hx
        · exact absurd hx (nonchain_kept hF d x (fun c0 h0 => hex ⟨c0, h0⟩) c)
      have hfc : ∃ f0, m.defn c.base = some (.chain f0) := by
        by_cases hex : ∃ c0, m.defn c.base = some (.chain c0)
        · exact hex
        · exact absurd hf (nonchain_kept hF d c.base (fun c0 h0 => hex ⟨c0, h0⟩) f)
      obtain ⟨f0, hf0⟩ := hfc
      rcases ho (d :: pre) x post (by simp [hsp]) c f0 hxc hf0 with hh | hh
      · exact Or.inl (by simp [hh])
      · rcases List.mem_cons.1 hh with hh | hh
        · exact Or.inl (by simp [hh])
        · exact Or.inr hh
    · rcases hy with hy | hy
      · exact Or.inl (by simp [hy])
      · rcases List.mem_cons.1 hy with hy | hy
        · exact Or.inl (by simp [hy])
        · exact Or.inr hy

/-- No access chain starts from an access chain afterwards: with 32-bit indices and logical
addressing, when each chain is visited after the one it starts from. -/
theorem no_chain_of_chains {m : Mod} {ds : List Id} (hF : Fresh m) (hL : Logical m)
    (hP : Plain m) (hnd : ds.Nodup)
    (ho : ∀ pre d post, ds = pre ++ d :: post → ∀ c f, m.defn d = some (.chain c) →
      m.defn c.base = some (.chain f) → c.base ∈ pre) :
    ∀ d ∈ ds, ∀ c, (process m ds).defn d = some (.chain c) →
      ∀ f, (process m ds).defn c.base ≠ some (.chain f) := by
  intro d hd
  exact flat_all ds [] hF hL hP (by simpa using hnd) (by simp)
    (fun pre d post hs c f h1 h2 => Or.inr (ho pre d post hs c f h1 h2)) d (Or.inr hd)

/-! ### Examples -/

/-- Types with their size; members at multiples of 4. -/
def lay : Layout where
  size := fun
    | .leaf n => n
    | _ => 64
  off := fun _ i => 4 * i

/-- A structure with an array: `1` points to it. `10` is the array, `11` one element,
`12` the same. `2` is the constant 1 and `3` an index. -/
def demo : Mod where
  defn := fun x =>
    if x = 10 then some (.chain ⟨false, true, 1, [2]⟩)
    else if x = 11 then some (.chain ⟨false, false, 10, [3]⟩)
    else if x = 12 then some (.chain ⟨false, true, 11, []⟩)
    else none
  cst := fun x => if x = 2 then some 1 else none
  sgn := fun _ => true
  wide := fun _ => false
  pty := fun x =>
    if x = 1 then .struct [.leaf 4, .arr (.leaf 4) 4]
    else if x = 10 then .arr (.leaf 4) 4
    else .leaf 4
  stride := fun _ => 0
  next := 20

def demoVals : Vals where
  bits := fun x => if x = 2 then 1 else if x = 3 then 5 else 0
  addr := fun x => if x = 1 then 100 else if x = 10 then 104 else 124

theorem demo_right : Right lay demo demoVals := by
  refine ⟨?_, ?_, ?_, ?_⟩
  · intro x c h
    simp only [demo] at h
    split at h
    · rename_i e
      cases h
      subst e
      rfl
    · exact absurd h (by simp)
  · intro d c h
    simp only [demo] at h
    split at h
    · rename_i e
      cases h
      subst e
      rfl
    · split at h
      · rename_i e
        cases h
        subst e
        rfl
      · split at h
        · rename_i e
          cases h
          subst e
          rfl
        · exact absurd h (by simp)
  · intro d s h
    simp only [demo] at h
    repeat' split at h
    all_goals exact absurd h (by simp)
  · intro d a b h
    simp only [demo] at h
    repeat' split at h
    all_goals exact absurd h (by simp)

theorem demo_fresh : Fresh demo := by
  refine ⟨?_, ?_, ?_, ?_⟩
  · intro x hx
    have hx : 20 ≤ x := hx
    have h1 : x ≠ 10 := fun e => absurd (e ▸ hx) (by decide)
    have h2 : x ≠ 11 := fun e => absurd (e ▸ hx) (by decide)
    have h3 : x ≠ 12 := fun e => absurd (e ▸ hx) (by decide)
    simp [demo, h1, h2, h3]
  · intro x hx
    have hx : 20 ≤ x := hx
    have h1 : x ≠ 2 := fun e => absurd (e ▸ hx) (by decide)
    simp [demo, h1]
  · intro d c h
    simp only [demo] at h
    repeat' split at h
    all_goals first | (cases h; decide) | exact absurd h (by simp)
  · intro d a b h
    simp only [demo] at h
    repeat' split at h
    all_goals exact absurd h (by simp)

theorem demo_logical : Logical demo := by
  intro d c h
  simp only [demo] at h
  repeat' split at h
  all_goals first | (cases h; rfl) | exact absurd h (by simp)

theorem demo_typed : Typed demo := by
  intro d c h
  simp only [demo] at h
  split at h
  · rename_i e
    cases h
    subst e
    exact ⟨by decide, rfl⟩
  · split at h
    · rename_i e
      cases h
      subst e
      exact ⟨by decide, rfl⟩
    · split at h
      · rename_i e
        cases h
        subst e
        exact ⟨by decide, rfl⟩
      · exact absurd h (by simp)

/-- The chains are combined: the element is reached from the variable, and the chain without
indices becomes a copy. -/
example : (process demo [10, 11, 12]).defn 11 = some (.chain ⟨false, false, 1, [2, 3]⟩) ∧
    (process demo [10, 11, 12]).defn 12 = some (.copy 11) := by decide

example : ∃ V', V'.addr = demoVals.addr ∧ (∀ x, x < 20 → V'.bits x = demoVals.bits x) ∧
    Right lay (process demo [10, 11, 12]) V' :=
  addresses_kept [10, 11, 12] demo_right demo_fresh demo_logical

example : Typed (process demo [10, 11, 12]) :=
  types_kept [10, 11, 12] demo_typed demo_fresh demo_logical

example : ∀ d ∈ [10, 11, 12], ∀ c, (process demo [10, 11, 12]).defn d = some (.chain c) →
    ∀ f, (process demo [10, 11, 12]).defn c.base ≠ some (.chain f) := by
  refine no_chain_of_chains demo_fresh demo_logical ⟨fun _ => rfl, fun _ => rfl⟩ (by decide) ?_
  intro pre d post hs c f hd hf
  match pre, hs with
  | [], hs =>
    cases hs
    cases hd
    cases hf
  | [_], hs =>
    cases hs
    cases hd
    decide
  | [_, _], hs =>
    cases hs
    cases hd
    decide
  | _ :: _ :: _ :: x, hs =>
    simp at hs

/-- Two chains: `10` from `1` with operand `2`, then the pointer access chain `11` with
element operand `3`. -/
def two (p : Bool) (c3 : Option (BitVec 32)) (c2 : BitVec 32) (t : Ty) (s : Nat) : Mod where
  defn := fun x =>
    if x = 10 then some (.chain ⟨p, false, 1, [2]⟩)
    else if x = 11 then some (.chain ⟨true, false, 10, [3]⟩)
    else none
  cst := fun x => if x = 2 then some c2 else if x = 3 then c3 else none
  sgn := fun _ => true
  wide := fun _ => false
  pty := fun x => if x = 1 then t else .leaf 4
  stride := fun x => if x = 1 then s else 0
  next := 20

def twoVals (b2 b3 : BitVec 32) (a10 a11 : Int) : Vals where
  bits := fun x => if x = 2 then b2 else if x = 3 then b3 else 0
  addr := fun x => if x = 1 then 0 else if x = 10 then a10 else a11

theorem two_right {L : Layout} {p : Bool} {c3 : Option (BitVec 32)} {c2 b3 : BitVec 32} {t : Ty}
    {s : Nat} {a10 a11 : Int} (h3 : ∀ c, c3 = some c → b3 = c)
    (h10 : locate L (two p c3 c2 t s) (twoVals c2 b3 a10 a11) ⟨p, false, 1, [2]⟩ =
      some (.leaf 4, a10))
    (h11 : locate L (two p c3 c2 t s) (twoVals c2 b3 a10 a11) ⟨true, false, 10, [3]⟩ =
      some (.leaf 4, a11)) : Right L (two p c3 c2 t s) (twoVals c2 b3 a10 a11) := by
  refine ⟨?_, ?_, ?_, ?_⟩
  · intro x c h
    simp only [two] at h
    split at h
    · rename_i e
      cases h
      subst e
      rfl
    · split at h
      · rename_i e
        subst e
        exact h3 c h
      · exact absurd h (by simp)
  · intro d c h
    simp only [two] at h
    split at h
    · rename_i e
      cases h
      subst e
      exact h10
    · split at h
      · rename_i e
        cases h
        subst e
        exact h11
      · exact absurd h (by simp)
  · intro d s h
    simp only [two] at h
    repeat' split at h
    all_goals exact absurd h (by simp)
  · intro d a b h
    simp only [two] at h
    repeat' split at h
    all_goals exact absurd h (by simp)

theorem two_fresh (p : Bool) (c3 : Option (BitVec 32)) (c2 : BitVec 32) (t : Ty) (s : Nat) :
    Fresh (two p c3 c2 t s) := by
  refine ⟨?_, ?_, ?_, ?_⟩
  · intro x hx
    have hx : 20 ≤ x := hx
    have h1 : x ≠ 10 := fun e => absurd (e ▸ hx) (by decide)
    have h2 : x ≠ 11 := fun e => absurd (e ▸ hx) (by decide)
    simp [two, h1, h2]
  · intro x hx
    have hx : 20 ≤ x := hx
    have h1 : x ≠ 2 := fun e => absurd (e ▸ hx) (by decide)
    have h2 : x ≠ 3 := fun e => absurd (e ▸ hx) (by decide)
    simp [two, h1, h2]
  · intro d c h
    simp only [two] at h
    repeat' split at h
    all_goals first | (cases h; simp [two]) | exact absurd h (by simp)
  · intro d a b h
    simp only [two] at h
    repeat' split at h
    all_goals exact absurd h (by simp)

theorem two_typed {p : Bool} {c3 : Option (BitVec 32)} {c2 : BitVec 32} {t : Ty} {s : Nat}
    (h : reach (two p c3 c2 t s) t (if p then [] else [2]) = some (.leaf 4)) :
    Typed (two p c3 c2 t s) := by
  intro d c hd
  simp only [two] at hd
  split at hd
  · rename_i e
    cases hd
    subst e
    exact ⟨fun _ => by simp, by cases p <;> exact h⟩
  · split at hd
    · rename_i e
      cases hd
      subst e
      exact ⟨by decide, rfl⟩
    · exact absurd hd (by simp)

/-- Stepping in an array: the index 1, then two elements further. -/
example : ∃ V', V'.addr = (twoVals 1 2 4 12).addr ∧
    (∀ x, x < 20 → V'.bits x = (twoVals 1 2 4 12).bits x) ∧
    Right lay (combine (two false none 1 (.arr (.leaf 4) 4) 0) 11) V' := by
  refine step_kept_partial (two_right (by simp) (by rfl) (by rfl)) (two_fresh _ _ _ _ _) 11 ?_
  intro c f hd hp hf
  cases hd
  cases hf
  refine ⟨by simp, ?_⟩
  intro init l e rest hi he
  have hi : [2] = init ++ [l] := hi
  have he : [3] = e :: rest := he
  have h1 : init = [] ∧ l = 2 := by
    cases init with
    | nil => simpa using hi.symm
    | cons _ _ => simp at hi
  obtain ⟨rfl, rfl⟩ := h1
  cases he
  refine ⟨?_, by simp [two], fun _ => ⟨.leaf 4, 0, rfl⟩⟩
  show -2147483648 ≤ _ ∧ _
  decide

/-- Found: the test whether an index selects a member of a structure looks at the type the
whole chain leads to, not at the type the last index is applied to. A pointer access chain
from a member of a structure, with an element operand which is 0 but not a constant, is
combined to an access chain which indexes the structure by a sum. -/
theorem struct_indexed_by_sum :
    ∃ (m : Mod) (V : Vals), Typed m ∧ Fresh m ∧ Right lay m V ∧ ¬ Typed (combine m 11) := by
  refine ⟨two false none 1 (.struct [.leaf 4, .leaf 4]) 0, twoVals 1 0 4 4, two_typed rfl,
    two_fresh _ _ _ _ _, two_right (by simp) (by rfl) (by rfl), ?_⟩
  intro h
  have := (h 11 ⟨false, false, 1, [20]⟩ rfl).2
  cases this

/-- Found: only the stride of the pointer between the two chains is looked at. When the base
of the first has another one, the sum steps by that. -/
theorem stride_of_base_lost :
    ∃ (m : Mod) (V : Vals), Typed m ∧ Fresh m ∧ Right lay m V ∧
      ¬ ∃ V', V'.addr = V.addr ∧ (∀ x, x < m.next → V'.bits x = V.bits x) ∧
        Right lay (combine m 11) V' := by
  refine ⟨two true (some 1) 1 (.leaf 4) 16, twoVals 1 1 16 20, two_typed rfl,
    two_fresh _ _ _ _ _, two_right (by simp) (by rfl) (by rfl), ?_⟩
  rintro ⟨V', ha, -, hR⟩
  have h := hR.chain 11 ⟨true, false, 1, [20]⟩ rfl
  have hb : V'.bits 20 = 2 := hR.cst 20 2 rfl
  have h' : some ((.leaf 4 : Ty), V'.addr 1 + (V'.bits 20).toInt * 16) =
      some (.leaf 4, V'.addr 11) := h
  rw [hb, ha] at h'
  have h2 := (Prod.mk.inj (Option.some.inj h')).2
  revert h2
  decide

/-- Found: the sum of two constants is taken modulo 2^32 in the type of the first, and can
become negative. -/
theorem sum_overflows :
    ∃ (m : Mod) (V : Vals), Typed m ∧ Fresh m ∧ Right lay m V ∧
      ¬ ∃ V', V'.addr = V.addr ∧ (∀ x, x < m.next → V'.bits x = V.bits x) ∧
        Right lay (combine m 11) V' := by
  refine ⟨two false (some 1) 2147483647 (.arr (.leaf 4) 4) 0,
    twoVals 2147483647 1 8589934588 8589934592, two_typed rfl,
    two_fresh _ _ _ _ _, two_right (by simp) (by rfl) (by rfl), ?_⟩
  rintro ⟨V', ha, -, hR⟩
  have h := hR.chain 11 ⟨false, false, 1, [20]⟩ rfl
  have hb : V'.bits 20 = 2147483648 := hR.cst 20 2147483648 rfl
  have h' : some ((.leaf 4 : Ty), V'.addr 1 + (V'.bits 20).toInt * 4) =
      some (.leaf 4, V'.addr 11) := h
  rw [hb, ha] at h'
  have h2 := (Prod.mk.inj (Option.some.inj h')).2
  revert h2
  decide

end Verif.CombineAccess
