import Verif.Strength.Lemmas
/-!
C29: strength reduction preserves the values a module computes.
-/
set_option linter.unusedSimpArgs false
set_option linter.unusedVariables false
namespace Verif.Strength
open Verif.StringLit (Word)
open Verif.NextId (Ctx takeNextId)

namespace Spec

/-- Values, and what instructions do that the pass leaves alone.  `num` are the 32-bit integers. -/
structure Sem where
  V : Type
  num : Word → V
  inj : ∀ x y, num x = num y → x = y
  lit : Word → List Word → V
  bin : BinOp → Word → V → V → V → Prop
  other : Nat → Word → V → List V → Prop

/-- The 32-bit integer types of a module. -/
def IsInt32 (m : Mod) (t : Word) : Prop := ∃ s, .intType t 32 s ∈ m.globals

/-- The values `ρ` of ids are as an execution of the instruction leaves them.  Multiplication
    and left shift of 32-bit integers are as SPIR-V defines them: shifting by 32 or more gives
    an undefined value. -/
def Holds (S : Sem) (I : Word → Prop) (ρ : Word → S.V) : Inst → Prop
  | .intType _ _ _ => True
  | .const t r ws => (I t → ∃ w, ws = [w] ∧ ρ r = S.num w) ∧ (¬ I t → ρ r = S.lit t ws)
  | .bin op t r a b =>
    (I t → ∃ x y, ρ a = S.num x ∧ ρ b = S.num y ∧
      match op with
      | .mul => ρ r = S.num (x * y)
      | .shl => y.toNat < 32 → ρ r = S.num (x <<< y.toNat)) ∧
    (¬ I t → S.bin op t (ρ r) (ρ a) (ρ b))
  | .other tag t r us => S.other tag t (ρ r) (us.map ρ)

def Sat (S : Sem) (m : Mod) (ρ : Word → S.V) : Prop := ∀ i ∈ m.globals ++ m.body, Holds S (IsInt32 m) ρ i

/-- The ids in an instruction. -/
def ids : Inst → List Word
  | .intType r _ _ => [r]
  | .const t r _ => [t, r]
  | .bin _ t r a b => [t, r, a, b]
  | .other _ t r us => t :: r :: us

/-- What validity of the module gives: ids are below the bound and not 0; a constant operand of
    a 32-bit multiplication has a 32-bit integer type. -/
structure Valid (m : Mod) : Prop where
  ids : ∀ i ∈ m.globals ++ m.body, ∀ x ∈ ids i, x.toNat < m.ctx.bound.toNat
  type : ∀ i ∈ m.body, ∀ t r a b, i = .bin .mul t r a b → t ≠ 0
  typed : ∀ i ∈ m.body, ∀ t r a b, i = .bin .mul t r a b → IsInt32 m t →
    ∀ t' c ws, .const t' c ws ∈ m.globals ++ m.body → c = a ∨ c = b → IsInt32 m t'

/-- Renaming the ids used. -/
def rename (σ : Word → Word) : Inst → Inst
  | .bin op t r a b => .bin op t r (σ a) (σ b)
  | .other tag t r us => .other tag t r (us.map σ)
  | i => i

/-- `m'` does what `m` does: it has the same instructions, up to a renaming of operands, but for
    some 32-bit multiplications that have become shifts; and for each execution of `m` there
    is one of `m'` in which ids of `m` have the same values, and so do renamed operands and
    the results of corresponding instructions. -/
def Refines (m m' : Mod) : Prop :=
  ∃ σ : Word → Word, ∃ new : List Inst,
    m'.globals = m.globals.map (rename σ) ++ new ∧
    m'.body.length = m.body.length ∧
    (∀ (k : Nat) i i', m.body[k]? = some i → m'.body[k]? = some i' →
      i' = rename σ i ∨ ∃ t r a b n x c, i = .bin .mul t r a b ∧ i' = .bin .shl t n x c ∧ IsInt32 m t) ∧
    (∀ x, x.toNat < m.ctx.bound.toNat → (σ x).toNat < m'.ctx.bound.toNat) ∧
    m.ctx.bound.toNat ≤ m'.ctx.bound.toNat ∧
    ∀ (S : Sem) ρ, Sat S m ρ → ∃ ρ', Sat S m' ρ' ∧
      (∀ x, x.toNat < m.ctx.bound.toNat → ρ' x = ρ x ∧ ρ' (σ x) = ρ x) ∧
      ∀ (k : Nat) i i', m.body[k]? = some i → m'.body[k]? = some i' → ρ' i'.result = ρ i.result

end Spec
open Spec

theorem rename_id (i : Inst) : rename id i = i := by cases i <;> simp [rename]
theorem rename_rename (σ τ : Word → Word) (i : Inst) : rename τ (rename σ i) = rename (τ ∘ σ) i := by
  cases i <;> simp [rename]
theorem rename_result (σ : Word → Word) (i : Inst) : (rename σ i).result = i.result := by cases i <;> rfl
theorem rename_old_new (old new : Word) (i : Inst) : i.rename old new = rename (fun u => if u = old then new else u) i := by
  cases i <;> rfl

theorem result_ids (i : Inst) : i.result ∈ ids i := by cases i <;> simp [Inst.result, ids]

/-- Values of the ids of an instruction are all that matters. -/
theorem holds_congr {S : Sem} {I J : Word → Prop} {ρ ρ' : Word → S.V} {i : Inst}
    (hI : ∀ t ∈ ids i, I t ↔ J t) (h : ∀ x ∈ ids i, ρ x = ρ' x) : Holds S I ρ i ↔ Holds S J ρ' i := by
  cases i with
  | intType => exact Iff.rfl
  | const t r ws =>
    simp only [Holds, hI t (by simp [ids]), h r (by simp [ids])]
  | bin op t r a b =>
    simp only [Holds, hI t (by simp [ids]), h r (by simp [ids]), h a (by simp [ids]), h b (by simp [ids])]
  | other tag t r us =>
    simp only [Holds]
    rw [h r (by simp [ids]), List.map_congr_left (fun x hx => h x (by simp [ids, hx]))]

theorem holds_rename {S : Sem} {I : Word → Prop} {ρ : Word → S.V} {σ : Word → Word} {i : Inst}
    (h : ∀ x ∈ ids i, ρ (σ x) = ρ x) : Holds S I ρ (rename σ i) ↔ Holds S I ρ i := by
  cases i with
  | intType => exact Iff.rfl
  | const t r ws => exact Iff.rfl
  | bin op t r a b =>
    simp only [Holds, rename, h a (by simp [ids]), h b (by simp [ids])]
  | other tag t r us =>
    simp only [Holds, rename, List.map_map]
    rw [List.map_congr_left (fun x hx => (by simpa using h x (by simp [ids, hx]) : (ρ ∘ σ) x = ρ x))]

theorem Spec.Refines.refl (m : Mod) : Refines m m := by
  refine ⟨id, [], ?_, rfl, ?_, fun _ h => h, Nat.le_refl _, fun S ρ h => ⟨ρ, h, fun _ _ => ⟨rfl, rfl⟩, ?_⟩⟩
  · rw [List.append_nil, List.map_congr_left (fun i _ => rename_id i), List.map_id']
  · intro k i i' h h'
    rw [h] at h'
    cases h'
    exact Or.inl (rename_id i).symm
  · intro k i i' h h'
    rw [h] at h'
    cases h'
    rfl

theorem mem_rename_intType {σ : Word → Word} {l : List Inst} {t w : Word} {s : Bool} :
    Inst.intType t w s ∈ l.map (rename σ) ↔ Inst.intType t w s ∈ l := by
  rw [List.mem_map]
  constructor
  · rintro ⟨i, hi, he⟩
    cases i <;> simp [rename] at he
    obtain ⟨rfl, rfl, rfl⟩ := he
    exact hi
  · intro h; exact ⟨_, h, rfl⟩

theorem Spec.Refines.trans {m1 m2 m3 : Mod} (h1 : Refines m1 m2) (h2 : Refines m2 m3)
    (hv : ∀ i ∈ m1.globals ++ m1.body, ∀ x ∈ ids i, x.toNat < m1.ctx.bound.toNat)
    (hI : ∀ t, t.toNat < m1.ctx.bound.toNat → IsInt32 m2 t → IsInt32 m1 t)
    (hv2 : ∀ i ∈ m2.globals ++ m2.body, ∀ x ∈ ids i, x.toNat < m2.ctx.bound.toNat) : Refines m1 m3 := by
  obtain ⟨σ, n1, a1, a2, a3, a4, a5, a6⟩ := h1
  obtain ⟨τ, n2, b1, b2, b3, b4, b5, b6⟩ := h2
  refine ⟨τ ∘ σ, n1.map (rename τ) ++ n2, ?_, b2.trans a2, ?_, fun x hx => b4 _ (a4 x hx), Nat.le_trans a5 b5, ?_⟩
  · rw [b1, a1, List.map_append, List.map_map, List.append_assoc]
    congr 1
    apply List.map_congr_left
    intro i _
    exact rename_rename σ τ i
  · intro k i i'' h h''
    have hk : k < m2.body.length := by
      rw [a2]; exact (List.getElem?_eq_some_iff.mp h).1
    have h' := List.getElem?_eq_getElem hk
    rcases a3 k i _ h h' with e | ⟨t, r, a, b, n, x, c, e1, e2, e3⟩
    · rcases b3 k _ i'' h' h'' with e' | ⟨t, r, a, b, n, x, c, e1, e2, e3⟩
      · left; rw [e', e, rename_rename]
      · right
        rw [e1] at e
        cases i with
        | bin op t' r' a' b' =>
          simp only [rename, Inst.bin.injEq] at e
          obtain ⟨rfl, rfl, rfl, _, _⟩ := e
          refine ⟨_, _, _, _, _, _, _, rfl, e2, hI _ ?_ e3⟩
          exact hv _ (List.mem_append_right _ (List.mem_of_getElem? h)) _ (by simp [ids])
        | _ => simp [rename] at e
    · right
      rcases b3 k _ i'' h' h'' with e' | ⟨_, _, _, _, _, _, _, e', _⟩
      · rw [e2] at e'
        exact ⟨t, r, a, b, n, _, _, e1, e', e3⟩
      · rw [e2] at e'; simp at e'
  · intro S ρ hs
    obtain ⟨ρ1, s1, c1, d1⟩ := a6 S ρ hs
    obtain ⟨ρ2, s2, c2, d2⟩ := b6 S ρ1 s1
    refine ⟨ρ2, s2, ?_, ?_⟩
    · intro x hx
      refine ⟨((c2 x (by omega)).1).trans (c1 x hx).1, ?_⟩
      exact ((c2 _ (a4 x hx)).2).trans (c1 x hx).2
    · intro k i i'' h h''
      have hk : k < m2.body.length := by
        rw [a2]; exact (List.getElem?_eq_some_iff.mp h).1
      have h' := List.getElem?_eq_getElem hk
      exact (d2 k _ _ h' h'').trans (d1 k _ _ h h')

/-- The invariant of the scan. -/
structure Inv (s : State) : Prop where
  valid : Valid s.m
  i32 : s.int32 ≠ 0 → IsInt32 s.m s.int32
  u32 : s.uint32 ≠ 0 → IsInt32 s.m s.uint32
  consts : ∀ n, s.consts n ≠ 0 → n ≤ 32 ∧ ∃ t, .const t (s.consts n) [BitVec.ofNat 32 n] ∈ s.m.globals ∧ IsInt32 s.m t

/-- Adding a global instruction whose result is a fresh id. -/
theorem add_global {m : Mod} (hv : Valid m) {i : Inst} {ctx : Ctx} (hr : i.result = m.ctx.bound)
    (hb : ctx.bound.toNat = m.ctx.bound.toNat + 1)
    (hi : (∃ w s, i = .intType m.ctx.bound w s) ∨ ∃ t v, i = .const t m.ctx.bound [v] ∧ IsInt32 m t) :
    Valid { m with globals := m.globals ++ [i], ctx := ctx } ∧
    Refines m { m with globals := m.globals ++ [i], ctx := ctx } ∧
    (∀ t, t.toNat < m.ctx.bound.toNat → (IsInt32 { m with globals := m.globals ++ [i], ctx := ctx } t ↔ IsInt32 m t)) := by
  have hI : ∀ t, t.toNat < m.ctx.bound.toNat →
      (IsInt32 { m with globals := m.globals ++ [i], ctx := ctx } t ↔ IsInt32 m t) := by
    intro t ht
    unfold IsInt32
    constructor
    · rintro ⟨s, hs⟩
      rcases List.mem_append.mp hs with hs | hs
      · exact ⟨s, hs⟩
      · simp only [List.mem_singleton] at hs
        rw [← hs] at hr
        simp only [Inst.result] at hr
        rw [hr] at ht
        omega
    · rintro ⟨s, hs⟩; exact ⟨s, List.mem_append_left _ hs⟩
  have hmem : ∀ j, j ∈ (m.globals ++ [i]) ++ m.body → j ∈ m.globals ++ m.body ∨ j = i := by
    intro j hj
    simp only [List.mem_append, List.mem_singleton] at hj ⊢
    rcases hj with (h | h) | h
    · exact Or.inl (Or.inl h)
    · exact Or.inr h
    · exact Or.inl (Or.inr h)
  refine ⟨⟨?_, hv.type, ?_⟩, ?_, hI⟩
  · intro j hj x hx
    simp only at hj ⊢
    rcases hmem j hj with hj | rfl
    · have := hv.ids j hj x hx
      omega
    · rcases hi with ⟨w, s, rfl⟩ | ⟨t, v, rfl, s, ht⟩
      · simp only [ids, List.mem_singleton] at hx
        subst hx
        omega
      · simp only [ids, List.mem_cons, List.not_mem_nil, or_false] at hx
        rcases hx with rfl | rfl
        · have := hv.ids _ (List.mem_append_left _ ht) x (by simp [ids])
          omega
        · omega
  · intro j hj t r a b he ht t' c ws hc hab
    simp only at hj hc
    have hlt : ∀ x ∈ ids j, x.toNat < m.ctx.bound.toNat := hv.ids j (List.mem_append_right _ hj)
    have ht' : t.toNat < m.ctx.bound.toNat := hlt t (by rw [he]; simp [ids])
    have hcb : c.toNat < m.ctx.bound.toNat := by
      rcases hab with rfl | rfl <;> exact hlt _ (by rw [he]; simp [ids])
    rcases hmem _ hc with hc | hc
    · have := hv.typed j hj t r a b he ((hI t ht').mp ht) t' c ws hc hab
      exact (hI t' (hv.ids _ hc t' (by simp [ids]))).mpr this
    · rw [← hc] at hr
      simp only [Inst.result] at hr
      rw [hr] at hcb
      omega
  · refine ⟨id, [i], ?_, rfl, ?_, ?_, ?_, ?_⟩
    · rw [List.map_congr_left (fun i _ => rename_id i), List.map_id']
    · intro k j j' h h'
      simp only at h'
      rw [h] at h'
      cases h'
      exact Or.inl (rename_id j).symm
    · intro x hx; simp only [id]; omega
    · simp only; omega
    · intro S ρ hs
      obtain ⟨val, hval⟩ : ∃ val : S.V, Holds S (IsInt32 m) (fun x => if x = m.ctx.bound then val else ρ x) i := by
        rcases hi with ⟨w, s, rfl⟩ | ⟨t, v, rfl, ht⟩
        · exact ⟨S.num 0, trivial⟩
        · refine ⟨S.num v, ⟨fun _ => ⟨v, rfl, by simp⟩, fun h => absurd ht h⟩⟩
      have hne : ∀ x : Word, x.toNat < m.ctx.bound.toNat → x ≠ m.ctx.bound := by
        rintro x hx rfl; omega
      refine ⟨fun x => if x = m.ctx.bound then val else ρ x, ?_, ?_, ?_⟩
      · intro j hj
        simp only at hj
        rcases hmem j hj with hj | rfl
        · refine (holds_congr (ρ := ρ) (I := IsInt32 m) ?_ ?_).mp (hs j hj)
          · intro t ht; exact (hI t (hv.ids j hj t ht)).symm
          · intro x hx; simp [hne x (hv.ids j hj x hx)]
        · rcases hi with ⟨w, s, rfl⟩ | ⟨t, v, rfl, ht⟩
          · trivial
          · obtain ⟨s, hs'⟩ := ht
            have htb := hv.ids _ (List.mem_append_left _ hs') t (by simp [ids])
            refine ⟨fun _ => hval.1 ⟨s, hs'⟩, fun h => absurd ((hI t htb).mpr ⟨s, hs'⟩) h⟩
      · intro x hx; simp [hne x hx]
      · intro k j j' h h'
        simp only at h'
        rw [h] at h'
        cases h'
        have := hv.ids j (List.mem_append_right _ (List.mem_of_getElem? h)) _ (result_ids j)
        simp [hne _ this]

theorem Spec.Valid.int32_lt {m : Mod} (hv : Valid m) {t : Word} (h : IsInt32 m t) : t.toNat < m.ctx.bound.toNat := by
  obtain ⟨s, hs⟩ := h
  exact hv.ids _ (List.mem_append_left _ hs) t (by simp [Spec.ids])

theorem Spec.IsInt32.append {m : Mod} {t : Word} (h : IsInt32 m t) (l : List Inst) (ctx : Ctx) :
    IsInt32 { m with globals := m.globals ++ l, ctx := ctx } t := by
  obtain ⟨s, hs⟩ := h
  exact ⟨s, List.mem_append_left _ hs⟩

/-- What is known after a call of `GetConstantId`. -/
theorem getConstantId_spec {s s' : State} {v c : Word} (hI : Inv s) (hb : s.m.ctx.bound ≠ 0)
    (h : getConstantId s v = .ok (c, s')) :
    Inv s' ∧ Refines s.m s'.m ∧ s'.m.body = s.m.body ∧
    (∀ t, t.toNat < s.m.ctx.bound.toNat → (IsInt32 s'.m t ↔ IsInt32 s.m t)) ∧ s.m.ctx.bound.toNat ≤ s'.m.ctx.bound.toNat ∧
    (∃ l, s'.m.globals = s.m.globals ++ l) ∧
    ∃ t, .const t c [v] ∈ s'.m.globals ∧ IsInt32 s'.m t := by
  unfold getConstantId at h
  split at h
  · cases h
  rename_i hv
  split at h
  · -- a new constant
    rename_i hc
    dsimp only at h
    -- the type
    have key : ∀ s1 : State, s1 = (if s.uint32 = 0 then makeUint32 s else s) → (takeNextId s1.m.ctx).1 ≠ 0 →
        Inv s1 ∧ Refines s.m s1.m ∧ s1.m.body = s.m.body ∧
        (∀ t, t.toNat < s.m.ctx.bound.toNat → (IsInt32 s1.m t ↔ IsInt32 s.m t)) ∧
        s.m.ctx.bound.toNat ≤ s1.m.ctx.bound.toNat ∧ s1.uint32 ≠ 0 ∧ ∃ l, s1.m.globals = s.m.globals ++ l := by
      intro s1 hs1 hid
      by_cases hu : s.uint32 = 0
      · rw [if_pos hu] at hs1
        unfold makeUint32 at hs1
        dsimp only at hs1
        by_cases hz : (takeNextId s.m.ctx).1 = 0
        · rw [if_pos hz] at hs1
          subst hs1
          exact absurd (takeNext_fail hb hz) hid
        · rw [if_neg hz] at hs1
          obtain ⟨t1, t2⟩ := takeNext hz
          obtain ⟨g1, g2, g3⟩ := add_global hI.valid (i := .intType (takeNextId s.m.ctx).1 32 false) t1 t2
            (Or.inl ⟨32, false, by rw [t1]⟩)
          subst hs1
          refine ⟨⟨g1, ?_, ?_, ?_⟩, g2, rfl, g3, by simp only; omega, hz, ⟨_, rfl⟩⟩
          · intro h0; exact (hI.i32 h0).append _ _
          · intro _; exact ⟨false, by simp⟩
          · intro n hn
            obtain ⟨k1, t, k2, k3⟩ := hI.consts n hn
            exact ⟨k1, t, List.mem_append_left _ k2, k3.append _ _⟩
      · rw [if_neg hu] at hs1
        subst hs1
        exact ⟨hI, .refl _, rfl, fun _ _ => Iff.rfl, Nat.le_refl _, hu, [], by simp⟩
    generalize hs1 : (if s.uint32 = 0 then makeUint32 s else s) = s1 at h
    by_cases hz : (takeNextId s1.m.ctx).1 = 0
    · rw [if_pos hz] at h; cases h
    · rw [if_neg hz] at h
      obtain ⟨I1, R1, B1, T1, L1, U1, G1⟩ := key s1 hs1.symm hz
      obtain ⟨t1, t2⟩ := takeNext hz
      simp only [Res.ok.injEq, Prod.mk.injEq] at h
      obtain ⟨hc', hs'⟩ := h
      have hut := I1.u32 U1
      obtain ⟨g1, g2, g3⟩ := add_global I1.valid (i := .const s1.uint32 (takeNextId s1.m.ctx).1 [v]) t1 t2
        (Or.inr ⟨s1.uint32, v, by rw [t1], hut⟩)
      subst hs'
      refine ⟨⟨g1, ?_, ?_, ?_⟩, ?_, B1, ?_, by simp only; omega, ?_, ?_⟩
      · intro h0; exact (I1.i32 h0).append _ _
      · intro h0; exact (I1.u32 h0).append _ _
      · intro n hn
        simp only at hn ⊢
        by_cases hnv : n = v.toNat
        · subst hnv
          refine ⟨by omega, s1.uint32, ?_, hut.append _ _⟩
          simp
        · simp only [hnv, if_false] at hn ⊢
          obtain ⟨k1, t, k2, k3⟩ := I1.consts n hn
          exact ⟨k1, t, List.mem_append_left _ k2, k3.append _ _⟩
      · exact R1.trans g2 hI.valid.ids (fun t ht h => (T1 t ht).mp h) I1.valid.ids
      · intro t ht
        exact (g3 t (by omega)).trans (T1 t ht)
      · obtain ⟨l, hl⟩ := G1
        exact ⟨_, by simp only; rw [hl, List.append_assoc]⟩
      · exact ⟨s1.uint32, by simp [hc'], hut.append _ _⟩
  · rename_i hc
    simp only [Res.ok.injEq, Prod.mk.injEq] at h
    obtain ⟨rfl, rfl⟩ := h
    obtain ⟨_, t, k2, k3⟩ := hI.consts _ hc
    refine ⟨hI, .refl _, rfl, fun _ _ => Iff.rfl, Nat.le_refl _, ⟨[], by simp⟩, t, ?_, k3⟩
    simpa using k2

/-- The shift in place of the multiplication. -/
theorem put_shift {m : Mod} (hv : Valid m) {k : Nat} {t r a b x c w : Word} {n : Nat} {ctx : Ctx}
    (hk : m.body[k]? = some (.bin .mul t r a b)) (ht : IsInt32 m t)
    (hop : ∃ op t1, ((op = a ∧ x = b) ∨ (op = b ∧ x = a)) ∧ .const t1 op [BitVec.ofNat 32 (2 ^ n)] ∈ m.globals ++ m.body)
    (hn : n < 32) (hc : ∃ t', .const t' c [BitVec.ofNat 32 n] ∈ m.globals ∧ IsInt32 m t')
    (hb : ctx.bound.toNat = m.ctx.bound.toNat + 1) :
    let m' : Mod := { globals := m.globals.map (·.rename r m.ctx.bound)
                      body := (m.body.set k (.bin .shl t m.ctx.bound x c)).map (·.rename r m.ctx.bound), ctx := ctx }
    Valid m' ∧ Refines m m' ∧ (∀ t, IsInt32 m' t ↔ IsInt32 m t) ∧
      ∀ t' c' ws, .const t' c' ws ∈ m.globals → .const t' c' ws ∈ m'.globals := by
  intro m'
  obtain ⟨op, t1, hax, hcw⟩ := hop
  obtain ⟨t', hct, hct'⟩ := hc
  have hmul := List.mem_of_getElem? hk
  have hlt : ∀ y ∈ [t, r, a, b], y.toNat < m.ctx.bound.toNat := hv.ids _ (List.mem_append_right _ hmul)
  have hrlt : r.toNat < m.ctx.bound.toNat := hlt r (by simp)
  have hclt : c.toNat < m.ctx.bound.toNat := hv.ids _ (List.mem_append_left _ hct) c (by simp [ids])
  have hxlt : x.toNat < m.ctx.bound.toNat := by
    rcases hax with ⟨_, rfl⟩ | ⟨_, rfl⟩ <;> exact hlt _ (by simp)
  have hne : ∀ y : Word, y.toNat < m.ctx.bound.toNat → y ≠ m.ctx.bound := by rintro y hy rfl; omega
  let σ : Word → Word := fun u => if u = r then m.ctx.bound else u
  have hren : ∀ i : Inst, i.rename r m.ctx.bound = rename σ i := rename_old_new r m.ctx.bound
  have hσ : ∀ u, u.toNat < ctx.bound.toNat → (σ u).toNat < ctx.bound.toNat := by
    intro u hu
    show (if u = r then m.ctx.bound else u).toNat < _
    split <;> omega
  have hI : ∀ t, IsInt32 m' t ↔ IsInt32 m t := by
    intro t
    unfold IsInt32
    simp only [m', hren]
    constructor
    · rintro ⟨s, hs⟩; exact ⟨s, mem_rename_intType.mp hs⟩
    · rintro ⟨s, hs⟩; exact ⟨s, mem_rename_intType.mpr hs⟩
  -- instructions of the new module
  have hmem : ∀ j ∈ m'.globals ++ m'.body, (∃ i ∈ m.globals ++ m.body, j = rename σ i) ∨
      j = rename σ (.bin .shl t m.ctx.bound x c) := by
    intro j hj
    simp only [m', hren, List.mem_append, List.mem_map] at hj
    rcases hj with ⟨i, hi, rfl⟩ | ⟨i, hi, rfl⟩
    · exact Or.inl ⟨i, List.mem_append_left _ hi, rfl⟩
    · rcases List.mem_or_eq_of_mem_set hi with hi | rfl
      · exact Or.inl ⟨i, List.mem_append_right _ hi, rfl⟩
      · exact Or.inr rfl
  have hconst : ∀ t' c' ws, Inst.const t' c' ws ∈ m'.globals ++ m'.body → Inst.const t' c' ws ∈ m.globals ++ m.body := by
    intro t' c' ws h
    rcases hmem _ h with ⟨i, hi, he⟩ | he
    · cases i <;> simp [rename] at he
      obtain ⟨rfl, rfl, rfl⟩ := he
      exact hi
    · simp [rename] at he
  have hidr : ∀ i, (∀ x ∈ ids i, x.toNat < ctx.bound.toNat) → ∀ x ∈ ids (rename σ i), x.toNat < ctx.bound.toNat := by
    intro i hi x hx
    cases i with
    | intType => exact hi x hx
    | const => exact hi x hx
    | bin op t r a b =>
      simp only [rename, ids, List.mem_cons, List.not_mem_nil, or_false] at hx
      rcases hx with rfl | rfl | rfl | rfl
      · exact hi _ (by simp [ids])
      · exact hi _ (by simp [ids])
      · exact hσ _ (hi _ (by simp [ids]))
      · exact hσ _ (hi _ (by simp [ids]))
    | other tag t r us =>
      simp only [rename, ids, List.mem_cons, List.mem_map] at hx
      rcases hx with rfl | rfl | ⟨u, hu, rfl⟩
      · exact hi _ (by simp [ids])
      · exact hi _ (by simp [ids])
      · exact hσ _ (hi _ (by simp [ids, hu]))
  have hbody : ∀ j ∈ m'.body, ∀ t2 r2 a2 b2, j = .bin .mul t2 r2 a2 b2 →
      ∃ a3 b3, .bin .mul t2 r2 a3 b3 ∈ m.body ∧ a2 = σ a3 ∧ b2 = σ b3 := by
    intro j hj t2 r2 a2 b2 he
    simp only [m', hren, List.mem_map] at hj
    obtain ⟨i, hi, rfl⟩ := hj
    rcases List.mem_or_eq_of_mem_set hi with hi | rfl
    · cases i <;> simp [rename] at he
      obtain ⟨rfl, rfl, rfl, rfl, rfl⟩ := he
      exact ⟨_, _, hi, rfl, rfl⟩
    · simp [rename] at he
  refine ⟨⟨?_, ?_, ?_⟩, ?_, hI, ?_⟩
  · intro j hj
    show ∀ x ∈ ids j, x.toNat < ctx.bound.toNat
    rcases hmem j hj with ⟨i, hi, rfl⟩ | rfl
    · exact hidr i (fun x hx => by have := hv.ids i hi x hx; omega)
    · apply hidr
      intro y hy
      simp only [ids, List.mem_cons, List.not_mem_nil, or_false] at hy
      have := hlt t (by simp)
      rcases hy with rfl | rfl | rfl | rfl <;> omega
  · intro j hj t2 r2 a2 b2 he
    obtain ⟨a3, b3, h3, _⟩ := hbody j hj t2 r2 a2 b2 he
    exact hv.type _ h3 _ _ _ _ rfl
  · intro j hj t2 r2 a2 b2 he hI2 t3 c3 ws hcs hab
    obtain ⟨a3, b3, h3, rfl, rfl⟩ := hbody j hj t2 r2 a2 b2 he
    have hcs' := hconst _ _ _ hcs
    have hcl := hv.ids _ hcs' c3 (by simp [ids])
    rw [hI] at hI2 ⊢
    refine hv.typed _ h3 _ _ _ _ rfl hI2 _ _ _ hcs' ?_
    have hs : ∀ z, c3 = σ z → c3 = z := by
      intro z hz
      simp only [σ] at hz
      split at hz
      · exact absurd hz (hne _ hcl)
      · exact hz
    rcases hab with h | h
    · exact Or.inl (hs _ h)
    · exact Or.inr (hs _ h)
  · refine ⟨σ, [], ?_, by simp [m'], ?_, ?_, ?_, ?_⟩
    · simp only [m', hren, List.append_nil]
    · intro k' i i' h h'
      simp only [m', hren, List.getElem?_map] at h'
      by_cases hkk : k = k'
      · subst hkk
        rw [hk] at h
        cases h
        rw [List.getElem?_set_self (List.getElem?_eq_some_iff.mp hk).1] at h'
        simp only [Option.map_some, Option.some.injEq] at h'
        exact Or.inr ⟨t, r, a, b, _, _, _, rfl, h'.symm, ht⟩
      · rw [List.getElem?_set_ne hkk, h] at h'
        simp only [Option.map_some, Option.some.injEq] at h'
        exact Or.inl h'.symm
    · intro y hy
      simp only [m']
      exact hσ y (by omega)
    · simp only [m']; omega
    · intro S ρ hs
      have hmulH := hs _ (List.mem_append_right _ hmul)
      obtain ⟨xa, xb, ea, eb, er⟩ := hmulH.1 ht
      simp only at er
      have hbn : ∀ y : Word, y.toNat < m.ctx.bound.toNat → (if y = m.ctx.bound then ρ r else ρ y) = ρ y := by
        intro y hy; simp [hne y hy]
      have hρσ : ∀ y, y.toNat < m.ctx.bound.toNat ∨ y = m.ctx.bound →
          (if σ y = m.ctx.bound then ρ r else ρ (σ y)) = (if y = m.ctx.bound then ρ r else ρ y) := by
        intro y hy
        simp only [σ]
        by_cases hyr : y = r
        · subst hyr; simp [hne y hrlt]
        · simp [hyr]
      refine ⟨fun y => if y = m.ctx.bound then ρ r else ρ y, ?_, ?_, ?_⟩
      · intro j hj
        rcases hmem j hj with ⟨i, hi, rfl⟩ | rfl
        · rw [holds_rename (fun y hy => hρσ y (Or.inl (hv.ids i hi y hy)))]
          refine (holds_congr (ρ := ρ) (I := IsInt32 m) ?_ ?_).mp (hs i hi)
          · intro t _; exact (hI t).symm
          · intro y hy; exact (hbn y (hv.ids i hi y hy)).symm
        · rw [holds_rename]
          · refine ⟨fun _ => ?_, fun h => absurd ((hI t).mpr ht) h⟩
            -- the constant operand
            have hT := hv.typed _ hmul t r a b rfl ht t1 op _ hcw (by
              rcases hax with ⟨h, _⟩ | ⟨h, _⟩
              · exact Or.inl h
              · exact Or.inr h)
            obtain ⟨w', hw', ew⟩ := (hs _ hcw).1 hT
            simp only [List.cons.injEq, and_true] at hw'
            subst hw'
            obtain ⟨w', hw', ec⟩ := (hs _ (List.mem_append_left _ hct)).1 hct'
            simp only [List.cons.injEq, and_true] at hw'
            subst hw'
            simp only [hbn x hxlt, hbn c hclt, if_true]
            rcases hax with ⟨rfl, rfl⟩ | ⟨rfl, rfl⟩
            · refine ⟨xb, _, eb, ec, fun _ => ?_⟩
              have : xa = BitVec.ofNat 32 (2 ^ n) := S.inj _ _ (ea.symm.trans ew)
              rw [er, this, BitVec.mul_comm, mul_pow2 _ _ hn]
            · refine ⟨xa, _, ea, ec, fun _ => ?_⟩
              have : xb = BitVec.ofNat 32 (2 ^ n) := S.inj _ _ (eb.symm.trans ew)
              rw [er, this, mul_pow2 _ _ hn]
          · intro y hy
            refine hρσ y ?_
            simp only [ids, List.mem_cons, List.not_mem_nil, or_false] at hy
            rcases hy with rfl | rfl | rfl | rfl
            · exact Or.inl (hlt _ (by simp))
            · exact Or.inr rfl
            · exact Or.inl hxlt
            · exact Or.inl hclt
      · intro y hy
        refine ⟨hbn y hy, ?_⟩
        simp only
        rw [hρσ y (Or.inl hy), hbn y hy]
      · intro k' i i' h h'
        simp only [m', hren, List.getElem?_map] at h'
        by_cases hkk : k = k'
        · subst hkk
          rw [hk] at h
          cases h
          rw [List.getElem?_set_self (List.getElem?_eq_some_iff.mp hk).1] at h'
          simp only [Option.map_some, Option.some.injEq] at h'
          subst h'
          simp [rename, Inst.result]
        · rw [List.getElem?_set_ne hkk, h] at h'
          simp only [Option.map_some, Option.some.injEq] at h'
          subst h'
          rw [rename_result]
          exact hbn _ (hv.ids i (List.mem_append_right _ (List.mem_of_getElem? h)) _ (result_ids i))
  · intro t' c' ws h
    simp only [m', List.mem_map]
    exact ⟨_, h, rfl⟩

/-- What a step of the scan keeps. -/
def Ok (s s' : State) : Prop :=
  Inv s' ∧ Refines s.m s'.m ∧ (∀ t, t.toNat < s.m.ctx.bound.toNat → (IsInt32 s'.m t ↔ IsInt32 s.m t))

theorem replace_spec {s s' : State} (hI : Inv s) {k : Nat} {t r a b op x w : Word}
    (hk : s.m.body[k]? = some (.bin .mul t r a b)) (ht : IsInt32 s.m t)
    (hax : (op = a ∧ x = b) ∨ (op = b ∧ x = a)) {t1 : Word} (hd : .const t1 op [w] ∈ s.m.globals ++ s.m.body)
    (hw : isPowerOf2 w = true) (h : replace s k t r x w = .ok s') : Ok s s' := by
  obtain ⟨n, hn, rfl⟩ := (isPowerOf2_iff w).mp hw
  unfold replace at h
  rw [ctz_pow2 n 0 hn] at h
  simp only at h
  have hz : (0 : Word) + BitVec.ofNat 32 n = BitVec.ofNat 32 n := by simp
  rw [hz] at h
  have hb0 : s.m.ctx.bound ≠ 0 := by
    intro h0
    have := hI.valid.int32_lt ht
    rw [h0] at this
    simp at this
  cases hc : getConstantId s (BitVec.ofNat 32 n) with
  | failure => rw [hc] at h; cases h
  | fault => rw [hc] at h; cases h
  | ok e =>
    obtain ⟨c, s1⟩ := e
    rw [hc] at h
    simp only at h
    obtain ⟨I1, R1, B1, T1, L1, ⟨l, G1⟩, t', k1, k2⟩ := getConstantId_spec hI hb0 hc
    by_cases hz : (takeNextId s1.m.ctx).1 = 0
    · rw [if_pos hz] at h; cases h
    · rw [if_neg hz] at h
      obtain ⟨t1', t2'⟩ := takeNext hz
      simp only [Res.ok.injEq] at h
      have htl := hI.valid.int32_lt ht
      obtain ⟨p1, p2, p3, p4⟩ := put_shift I1.valid (x := x) (c := c) (w := c) (ctx := (takeNextId s1.m.ctx).2)
        (by rw [B1]; exact hk) ((T1 t htl).mpr ht)
        ⟨op, t1, hax, by
          rw [B1, G1]
          rcases List.mem_append.mp hd with hd | hd
          · exact List.mem_append_left _ (List.mem_append_left _ hd)
          · exact List.mem_append_right _ hd⟩ hn ⟨t', k1, k2⟩ t2'
      subst h
      simp only [t1']
      refine ⟨⟨p1, ?_, ?_, ?_⟩, ?_, ?_⟩
      · intro h0; exact (p3 _).mpr (I1.i32 h0)
      · intro h0; exact (p3 _).mpr (I1.u32 h0)
      · intro m hm
        obtain ⟨q1, t2, q2, q3⟩ := I1.consts m hm
        exact ⟨q1, t2, p4 _ _ _ q2, (p3 _).mpr q3⟩
      · exact R1.trans p2 hI.valid.ids (fun t ht h => (T1 t ht).mp h) I1.valid.ids
      · intro t ht
        exact (p3 t).trans (T1 t ht)

theorem getDef_mem {m : Mod} {id : Word} {i : Inst} (h : getDef m id = some i) :
    i ∈ m.globals ++ m.body ∧ i.result = id := by
  unfold getDef at h
  have h1 := List.find?_some h
  simp only [decide_eq_true_eq] at h1
  exact ⟨List.mem_of_find?_eq_some h, h1⟩

theorem tryOperands_spec {s s' : State} (hI : Inv s) {k : Nat} {t r a b : Word}
    (hk : s.m.body[k]? = some (.bin .mul t r a b)) (ht : IsInt32 s.m t) {l : List (Word × Word)}
    (hl : ∀ e ∈ l, (e.1 = a ∧ e.2 = b) ∨ (e.1 = b ∧ e.2 = a)) (h : tryOperands s k t r l = .ok s') : Ok s s' := by
  induction l with
  | nil => cases h; exact ⟨hI, .refl _, fun _ _ => Iff.rfl⟩
  | cons e l ih =>
    obtain ⟨op, x⟩ := e
    have ih := ih (fun e he => hl e (by simp [he]))
    unfold tryOperands at h
    split at h
    · cases h
    · rename_i t1 c w hd
      obtain ⟨h1, h2⟩ := getDef_mem hd
      simp only [Inst.result] at h2
      subst h2
      split at h
      · rename_i hw
        exact replace_spec hI hk ht (hl (c, x) (by simp)) h1 hw h
      · exact ih h
    · cases h
    · exact ih h

theorem visit_spec {s s' : State} (hI : Inv s) {k : Nat} (h : visit s k = .ok s') : Ok s s' := by
  unfold visit at h
  split at h
  · rename_i t r a b hk
    split at h
    · cases h; exact ⟨hI, .refl _, fun _ _ => Iff.rfl⟩
    · rename_i hne
      have hm := List.mem_of_getElem? hk
      have ht0 := hI.valid.type _ hm t r a b rfl
      have ht : IsInt32 s.m t := by
        by_cases h1 : t = s.int32
        · rw [h1]; exact hI.i32 (h1 ▸ ht0)
        · have h2 : t = s.uint32 := Decidable.byContradiction fun h2 => hne ⟨h1, h2⟩
          rw [h2]; exact hI.u32 (h2 ▸ ht0)
      refine tryOperands_spec hI hk ht ?_ h
      intro e he
      simp only [List.mem_cons, List.not_mem_nil, or_false] at he
      rcases he with rfl | rfl
      · exact Or.inl ⟨rfl, rfl⟩
      · exact Or.inr ⟨rfl, rfl⟩
  · cases h; exact ⟨hI, .refl _, fun _ _ => Iff.rfl⟩

theorem scan_spec {s s' : State} (hI : Inv s) {ks : List Nat} (h : scan s ks = .ok s') : Ok s s' := by
  induction ks generalizing s with
  | nil => cases h; exact ⟨hI, .refl _, fun _ _ => Iff.rfl⟩
  | cons k ks ih =>
    unfold scan at h
    cases hv : visit s k with
    | failure => rw [hv] at h; cases h
    | fault => rw [hv] at h; cases h
    | ok s1 =>
      rw [hv] at h
      obtain ⟨a1, a2, a3⟩ := visit_spec hI hv
      obtain ⟨b1, b2, b3⟩ := ih a1 h
      have hle : s.m.ctx.bound.toNat ≤ s1.m.ctx.bound.toNat := by
        obtain ⟨_, _, _, _, _, _, h, _⟩ := a2; exact h
      refine ⟨b1, a2.trans b2 hI.valid.ids (fun t ht h => (a3 t ht).mp h) a1.valid.ids, ?_⟩
      intro t ht
      exact (b3 t (by omega)).trans (a3 t ht)

theorem findConstants_spec {m : Mod} {u : Word} (hu : u ≠ 0 → IsInt32 m u)
    (hz : ∀ t r ws, Inst.const t r ws ∈ m.globals → t ≠ 0) (l : List Inst)
    (hl : ∀ i ∈ l, i ∈ m.globals) {c c' : Nat → Word}
    (hc : ∀ n, c n ≠ 0 → n ≤ 32 ∧ ∃ t, .const t (c n) [BitVec.ofNat 32 n] ∈ m.globals ∧ IsInt32 m t)
    (h : findConstants u l c = some c') :
    ∀ n, c' n ≠ 0 → n ≤ 32 ∧ ∃ t, .const t (c' n) [BitVec.ofNat 32 n] ∈ m.globals ∧ IsInt32 m t := by
  induction l generalizing c with
  | nil => cases h; exact hc
  | cons i l ih =>
    have hl' : ∀ i ∈ l, i ∈ m.globals := fun j hj => hl j (by simp [hj])
    cases i with
    | const t r ws =>
      simp only [findConstants] at h
      split at h
      · rename_i htu
        subst htu
        have hm := hl (.const t r ws) (by simp)
        have ht := hz _ _ _ hm
        split at h
        · rename_i v
          refine ih hl' ?_ h
          intro n hn
          by_cases hv : v.toNat ≤ 32
          · simp only [hv, if_true] at hn ⊢
            by_cases hnv : n = v.toNat
            · subst hnv
              refine ⟨hv, t, ?_, hu ht⟩
              simpa using hm
            · simp only [hnv, if_false] at hn ⊢
              exact hc n hn
          · simp only [hv, if_false] at hn ⊢
            exact hc n hn
        · cases h
      · exact ih hl' hc h
    | _ => exact ih hl' hc h

theorem intTypeId_spec (m : Mod) (sg : Bool) (h : intTypeId m sg ≠ 0) : IsInt32 m (intTypeId m sg) := by
  unfold intTypeId at *
  cases hf : m.globals.find? (isIntType sg) with
  | none => rw [hf] at h; exact absurd rfl h
  | some i =>
    have h1 := List.find?_some hf
    have h2 := List.mem_of_find?_eq_some hf
    cases i with
    | intType r w s =>
      simp only [isIntType, Bool.and_eq_true, beq_iff_eq] at h1
      obtain ⟨rfl, rfl⟩ := h1
      exact ⟨_, h2⟩
    | _ => simp [isIntType] at h1

/-- C29.  If the pass succeeds on a valid module, the module it leaves does what the given one
    does: some multiplications of 32-bit integers have become shifts with the same result, for
    all values of the operands, and nothing else has changed but the names of operands. -/
theorem process_refines {m : Mod} {s : State} (hv : Valid m)
    (hz : ∀ t r ws, Inst.const t r ws ∈ m.globals → t ≠ 0) (h : process m = .ok s) :
    Refines m s.m ∧ Valid s.m := by
  unfold process at h
  simp only at h
  cases hf : findConstants (intTypeId m false) m.globals (fun _ => 0) with
  | none => rw [hf] at h; cases h
  | some c =>
    rw [hf] at h
    have hc := findConstants_spec (intTypeId_spec m false) hz m.globals (fun i hi => hi)
      (c := fun _ => 0) (fun n hn => absurd rfl hn) hf
    have hI : Inv ⟨m, intTypeId m true, intTypeId m false, c⟩ :=
      ⟨hv, intTypeId_spec m true, intTypeId_spec m false, hc⟩
    obtain ⟨a1, a2, _⟩ := scan_spec hI h
    exact ⟨a2, a1.valid⟩

/-- `IsPowerOf2` and `CountTrailingZeros` for all words. -/
theorem powers_of_two (v : Word) : isPowerOf2 v = true →
    ∃ k, k < 32 ∧ countTrailingZeros v = some (BitVec.ofNat 32 k) ∧ ∀ x : Word, x * v = x <<< k := by
  intro h
  obtain ⟨k, hk, rfl⟩ := (isPowerOf2_iff v).mp h
  refine ⟨k, hk, ?_, ?_⟩
  · rw [ctz_pow2 k 0 hk]; simp
  · intro x
    rw [mul_pow2 x k hk, BitVec.toNat_ofNat, Nat.mod_eq_of_lt (by omega)]

/-! ## Example: `%5 = OpIMul %1 %4 %3` with `%3 = OpConstant %1 8` -/

def exMod : Mod :=
  { globals := [.intType 1 32 true, .const 1 3 [8]]
    body := [.other 0 1 4 [], .bin .mul 1 5 4 3, .other 1 0 2 [5]]
    ctx := ⟨6, 100, false⟩ }

example : Valid exMod ∧ (∀ t r ws, Inst.const t r ws ∈ exMod.globals → t ≠ 0) := by
  refine ⟨⟨?_, ?_, ?_⟩, ?_⟩
  · simp [exMod, ids]
  · intro i hi t r a b he
    simp only [exMod, List.mem_cons, List.not_mem_nil, or_false] at hi
    rcases hi with rfl | rfl | rfl <;> simp at he
    obtain ⟨rfl, _⟩ := he
    decide
  · intro i hi t r a b he _ t' c ws hc _
    simp only [exMod, List.mem_append, List.mem_cons, List.not_mem_nil, or_false, reduceCtorEq, false_or,
      Inst.const.injEq, or_self] at hc
    obtain ⟨rfl, _⟩ := hc
    exact ⟨true, by simp [exMod]⟩
  · intro t r ws h
    simp only [exMod, List.mem_cons, List.not_mem_nil, or_false, reduceCtorEq, false_or, Inst.const.injEq] at h
    rw [h.1]
    decide

/-- The multiplication becomes a shift by 3, a constant of a new type. -/
example : match process exMod with
    | .ok s => s.m.body = [.other 0 1 4 [], .bin .shl 1 8 4 7, .other 1 0 2 [8]] ∧
        s.m.globals = [.intType 1 32 true, .const 1 3 [8], .intType 6 32 false, .const 6 7 [3]]
    | _ => False := by
  have h : countTrailingZeros 8#32 0#32 = some 3 := ctz_pow2 3 0 (by decide)
  have hp : isPowerOf2 8#32 = true := by decide
  simp [process, exMod, intTypeId, isIntType, findConstants, scan, visit, tryOperands, getDef, replace, h, hp,
    getConstantId, makeUint32, takeNextId, Verif.NextId.takeNextIdBound, Inst.result, Inst.rename, List.range,
    List.range.loop]

end Verif.Strength
