import Verif.Disasm.Numbers
/-!
Ids in the text and in the module: `rho` is the id the assembler has for the number printed. In the
pass that collects the numbers nothing is preserved (`P = []`) and ids are renamed; in the second
pass all are preserved.
-/
set_option linter.unusedSimpArgs false
set_option linter.unusedVariables false
namespace Verif.Disasm
open Verif.ParseNumber (Text NumberType)
open Verif.Binary (OT MState NumType NumKind)
open Verif.Asm hiding Inst Word
open Spec

/-- The id the assembler has for the number `w`. -/
def rho (P : List Nat) (ids : Ids) (w : Word) : Option Word :=
  if w.toNat ∈ P then some w else (ids.named.lookup (dec w.toNat)).map (BitVec.ofNat 32)

structure IdsOk (P : List Nat) (n : Nat) (ids : Ids) : Prop where
  first : P = [] → Inv [] n ids
  second : P ≠ [] → ids.named = []

def OkId (P : List Nat) (w : Word) : Prop := P = [] ∨ w.toNat ∈ P

theorem IdsOk.mono {P : List Nat} {n n' : Nat} {ids : Ids} (h : IdsOk P n ids) (hn : n ≤ n') : IdsOk P n' ids :=
  ⟨fun hp => ⟨Nat.le_trans (h.first hp).len hn, (h.first hp).pos, (h.first hp).next, (h.first hp).range,
    (h.first hp).inj, (h.first hp).bound⟩, h.second⟩

theorem idsOk_init (P : List Nat) : IdsOk P 0 .init := ⟨fun h => inv_init [], fun _ => rfl⟩

theorem rho_inj {P : List Nat} {n : Nat} {ids : Ids} (h : IdsOk P n ids) {a b v : Word}
    (ha : rho P ids a = some v) (hb : rho P ids b = some v) : a = b := by
  by_cases hP : P = []
  · subst hP
    have hi := h.first rfl
    simp only [rho, List.not_mem_nil, if_false] at ha hb
    obtain ⟨i, hi1, hi2⟩ := Option.map_eq_some_iff.1 ha
    obtain ⟨j, hj1, hj2⟩ := Option.map_eq_some_iff.1 hb
    have hm1 := lookup_mem hi1
    have hm2 := lookup_mem hj1
    have r1 := hi.range _ hm1
    have r2 := hi.range _ hm2
    have hb := hi.bound
    simp only at r1 r2
    have : i = j := by
      have e : (BitVec.ofNat 32 i).toNat = (BitVec.ofNat 32 j).toNat := by rw [hi2, hj2]
      rw [BitVec.toNat_ofNat, BitVec.toNat_ofNat, Nat.mod_eq_of_lt (by omega), Nat.mod_eq_of_lt (by omega)] at e
      exact e
    have := hi.inj _ hm1 _ hm2 this
    exact BitVec.eq_of_toNat_eq (dec_inj this)
  · have hn := h.second hP
    unfold rho at ha hb
    rw [hn] at ha hb
    simp only [List.lookup_nil, Option.map_none] at ha hb
    split at ha
    · split at hb
      · cases ha; cases hb; rfl
      · cases hb
    · cases ha

/-- With all numbers preserved, ids are themselves. -/
theorem rho_id {P : List Nat} {n : Nat} {ids : Ids} (h : IdsOk P n ids) (hP : P ≠ []) {a v : Word}
    (ha : rho P ids a = some v) : v = a := by
  unfold rho at ha
  rw [h.second hP] at ha
  split at ha
  · cases ha; rfl
  · cases ha

theorem lookup_cons_ne {l : List (Text × Nat)} {a b : Text} {v : Nat} (h : a ≠ b) :
    List.lookup a ((b, v) :: l) = List.lookup a l := by
  rw [List.lookup_cons]
  have : (a == b) = false := by simpa using h
  rw [this]

theorem assign_dec {P : List Nat} {n : Nat} {ids : Ids} (h : IdsOk P n ids) (hn : n < 2 ^ 32 - 2) (w : Word)
    (hw : OkId P w) :
    ∃ v ids', assignOrGet P ids (dec w.toNat) = some (v.toNat, ids') ∧ IdsOk P (n + 1) ids' ∧
      rho P ids' w = some v ∧ (∀ a b, rho P ids a = some b → rho P ids' a = some b) ∧
      (∀ a, a ≠ w → rho P ids' a = rho P ids a) := by
  by_cases hP : P = []
  · subst hP
    have hi := h.first rfl
    obtain ⟨id, ids', h1, h2, -, h4, -, h6, h7⟩ := assign_spec (P := []) (dec_valid w.toNat) hi
      (by simpa using hn) (by simp)
    have hb := h2.bound
    have hv : (BitVec.ofNat 32 id).toNat = id := by
      rw [BitVec.toNat_ofNat, Nat.mod_eq_of_lt (by omega)]
    refine ⟨BitVec.ofNat 32 id, ids', by rw [hv]; exact h1, ⟨fun _ => h2, fun hc => absurd rfl hc⟩, ?_, ?_, ?_⟩
    · have : ids'.named.lookup (dec w.toNat) = some id := by
        rcases h7 with ⟨⟨-, hc⟩, -⟩ | ⟨-, h7⟩
        · cases hc
        · exact h7
      simp [rho, this]
    · intro a b hab
      simp only [rho, List.not_mem_nil, if_false] at hab ⊢
      obtain ⟨j, hj1, hj2⟩ := Option.map_eq_some_iff.1 hab
      rw [h6 _ (by rw [hj1]; rfl), hj1, ← hj2]; rfl
    · intro a ha
      have hne : dec a.toNat ≠ dec w.toNat := fun hc => ha (BitVec.eq_of_toNat_eq (dec_inj hc))
      have : ids'.named.lookup (dec a.toNat) = ids.named.lookup (dec a.toNat) := by
        unfold assignOrGet at h1
        simp only [if_true] at h1
        split at h1
        · cases h1; rfl
        · split at h1
          · cases h1
          · simp only [Option.some.injEq, Prod.mk.injEq] at h1
            obtain ⟨-, rfl⟩ := h1
            exact lookup_cons_ne hne
      simp [rho, this]
  · have hm : w.toNat ∈ P := hw.resolve_left hP
    have hp := parseU32_dec w.toNat w.isLt
    refine ⟨w, { ids with bound := max ids.bound (succ32 w.toNat) }, ?_,
      ⟨fun hc => absurd hc hP, fun _ => h.second hP⟩, by simp [rho, hm], fun a b hab => hab, fun a _ => rfl⟩
    unfold assignOrGet
    rw [if_neg hP, hp]
    simp [Option.filter, hm]

/-! ## The context of the assembler and the state of the parser -/

/-- A number type as the assembler keeps it. -/
def toIdType (n : NumType) : IdType :=
  match n.kind with
  | .none => ⟨0, false, .other, 0⟩
  | .unsigned => ⟨n.width.toNat, false, .int, 0⟩
  | .signed => ⟨n.width.toNat, true, .int, 0⟩
  | .floating => ⟨n.width.toNat, false, .float, n.enc⟩

/-- The tables of the assembler are those of the parser, up to the names of ids. `id0` are the
types of values at the start of the instruction. -/
structure CtxRel (P : List Nat) (n : Nat) (c : Ctx) (m : MState) (id0 : Word → Option Word) : Prop where
  ids : IdsOk P n c.ids
  types : ∀ w v, rho P c.ids w = some v → c.types v = (m.numType w).map toIdType
  imports : ∀ w v, rho P c.ids w = some v → c.imports v = m.imports w
  value : ∀ w v ty, rho P c.ids w = some v → id0 w = some ty → ty ≠ 0 → ty ≠ w →
    ∃ tv, rho P c.ids ty = some tv ∧ c.valueTypes v = some tv
  unvalued : ∀ w v, rho P c.ids w = some v → id0 w = none → c.valueTypes v = none
  undef : ∀ w, m.idType w = none → m.numType w = none ∧ m.imports w = none
  dom : ∀ w, rho P c.ids w = none → m.idType w = none
  le : ∀ w, m.idType w = none → id0 w = none
  range : ∀ v, (∀ w, rho P c.ids w ≠ some v) → c.types v = none ∧ c.imports v = none ∧ c.valueTypes v = none
  importsNe : ∀ w e, m.imports w = some e → e ≠ 0

theorem CtxRel.init (P : List Nat) (k : Nat) :
    CtxRel P k .init ⟨k, fun _ => none, fun _ => none, fun _ => none⟩ (fun _ => none) where
  ids := (idsOk_init P).mono (Nat.zero_le _)
  types := fun _ _ _ => rfl
  imports := fun _ _ _ => rfl
  value := fun _ _ _ _ h => by cases h
  unvalued := fun _ _ _ _ => rfl
  undef := fun _ _ => ⟨rfl, rfl⟩
  dom := fun _ _ => rfl
  le := fun _ _ => rfl
  range := fun _ _ => ⟨rfl, rfl, rfl⟩
  importsNe := fun _ _ h => by cases h

theorem CtxRel.mono {P : List Nat} {n n' : Nat} {c : Ctx} {m : MState} {id0 : Word → Option Word}
    (h : CtxRel P n c m id0) (hn : n ≤ n') : CtxRel P n' c m id0 :=
  ⟨h.ids.mono hn, h.types, h.imports, h.value, h.unvalued, h.undef, h.dom, h.le, h.range, h.importsNe⟩

/-- The position of the parser does not matter. -/
theorem CtxRel.idx {P : List Nat} {n : Nat} {c : Ctx} {m : MState} {id0 : Word → Option Word}
    (h : CtxRel P n c m id0) (k : Nat) : CtxRel P n c { m with idx := k } id0 :=
  ⟨h.ids, h.types, h.imports, h.value, h.unvalued, h.undef, h.dom, h.le, h.range, h.importsNe⟩

/-- One use of an id. -/
theorem CtxRel.assign {P : List Nat} {n : Nat} {c : Ctx} {m : MState} {id0 : Word → Option Word}
    (h : CtxRel P n c m id0) (hn : n < 2 ^ 32 - 2) (w : Word) (hw : OkId P w) :
    ∃ v ids', assignOrGet P c.ids (dec w.toNat) = some (v.toNat, ids') ∧
      CtxRel P (n + 1) { c with ids := ids' } m id0 ∧
      rho P ids' w = some v ∧ (∀ a b, rho P c.ids a = some b → rho P ids' a = some b) := by
  obtain ⟨v, ids', h1, h2, h3, h4, h5⟩ := assign_dec h.ids hn w hw
  refine ⟨v, ids', h1, ?_, h3, h4⟩
  -- a number new to the assembler
  have fresh : ∀ a u, rho P ids' a = some u → rho P c.ids a ≠ some u →
      m.idType a = none ∧ c.types u = none ∧ c.imports u = none ∧ c.valueTypes u = none := by
    intro a u hau hno
    have haw : a = w := by
      apply Classical.byContradiction
      intro hne
      exact hno (by rw [← h5 a hne]; exact hau)
    have hnone : rho P c.ids a = none := by
      cases hr : rho P c.ids a with
      | none => rfl
      | some u' =>
        have := h4 _ _ hr
        rw [hau] at this; cases this
        exact absurd hr hno
    refine ⟨h.dom a hnone, h.range u ?_⟩
    intro b hb
    have hb' := h4 _ _ hb
    have := rho_inj h2 hb' hau
    subst this
    rw [hnone] at hb; cases hb
  constructor
  · exact h2
  · intro a u hau
    by_cases hr : rho P c.ids a = some u
    · exact h.types a u hr
    · obtain ⟨f1, f2, f3, f4⟩ := fresh a u hau hr
      simp only [f2, (h.undef a f1).1]; rfl
  · intro a u hau
    by_cases hr : rho P c.ids a = some u
    · exact h.imports a u hr
    · obtain ⟨f1, f2, f3, f4⟩ := fresh a u hau hr
      simp only [f3, (h.undef a f1).2]
  · intro a u ty hau hty h0 hne
    by_cases hr : rho P c.ids a = some u
    · obtain ⟨tv, ht1, ht2⟩ := h.value a u ty hr hty h0 hne
      exact ⟨tv, h4 _ _ ht1, ht2⟩
    · obtain ⟨f1, f2, f3, f4⟩ := fresh a u hau hr
      rw [h.le a f1] at hty; cases hty
  · intro a u hau hty
    by_cases hr : rho P c.ids a = some u
    · exact h.unvalued a u hr hty
    · exact (fresh a u hau hr).2.2.2
  · exact h.undef
  · intro a ha
    apply h.dom
    cases hr : rho P c.ids a with
    | none => rfl
    | some u =>
      have := h4 _ _ hr
      simp only at ha
      rw [this] at ha; cases ha
  · exact h.le
  · intro u hu
    apply h.range
    intro a ha
    exact hu a (h4 _ _ ha)
  · exact h.importsNe

end Verif.Disasm
