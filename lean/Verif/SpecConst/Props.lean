import Verif.SpecConst.Lemmas
/-
C44: default values of specialization constants.
-/
set_option linter.unusedSimpArgs false
set_option linter.unusedVariables false
namespace Verif.SpecConst
open Verif.ParseNumber Spec

/-- C44, the flag text: parsing gives a map exactly if the text denotes pairs of
    spec id and value, and then exactly these pairs. -/
theorem parseDefaultValuesString_spec (text : Text) (m : StrMap) :
    parseDefaultValuesString (some text) = some m ↔ Denotes text m := by
  unfold parseDefaultValuesString
  simp only
  rw [parseLoop_iff text.length [] text (Nat.le_refl _) (by simp)]
  unfold Denotes
  constructor
  · rintro ⟨es, ws, h1, h2, h3, h4, h5⟩
    simp only [List.nil_append] at h4
    subst h4
    exact ⟨h1, ⟨ws, h2, h3⟩, h5⟩
  · rintro ⟨h1, ⟨ws, h2, h3⟩, h5⟩
    exact ⟨m, ws, h1, h2, h3, by simp, h5⟩

theorem parseDefaultValuesString_null : parseDefaultValuesString none = none := rfl

/-- C44, texts of integer constants: the words of the value the text is a literal
    for, and nothing if it is not a literal of the type. -/
theorem parseDefaultValueStr_int (ef : Text → Nat → Option (List Word)) (w : Nat)
    (hw : 1 ≤ w ∧ w ≤ 64) (signed : Bool) (text : Text)
    (hsp : ∀ c, text.head? = some c → isSpace c = false) :
    (∀ v, ParseNumber.Spec.Literal w signed text v →
      parseDefaultValueStr ef text (.int w signed) = ParseNumber.Spec.words w v) ∧
    ((¬ ∃ v, ParseNumber.Spec.Literal w signed text v) →
      parseDefaultValueStr ef text (.int w signed) = []) := by
  have he : parseDefaultValueStr ef text (.int w signed) =
      (match encodeInteger (some text) (intType w signed) with
        | (.success, ws) => ws
        | _ => []) := by
    unfold parseDefaultValueStr encodeNumber intType
    simp only [reduceCtorEq, and_false, if_false]
    split <;> rename_i heq <;> simp [heq]
  rw [he]
  constructor
  · intro v hv
    have := (encodeInteger_spec w hw signed text hsp (ParseNumber.Spec.words w v)).mpr ⟨v, hv, rfl⟩
    rw [this]
  · intro hno
    split
    · rename_i ws heq
      obtain ⟨v, hv, _⟩ := (encodeInteger_spec w hw signed text hsp ws).mp heq
      exact absurd ⟨v, hv⟩ hno
    · rfl

/-- C44, texts of boolean constants. -/
theorem parseDefaultValueStr_bool (ef : Text → Nat → Option (List Word)) (text : Text) :
    parseDefaultValueStr ef text .bool =
      if text = "true".toList then [1] else if text = "false".toList then [0] else [] := by
  unfold parseDefaultValueStr
  by_cases h1 : text = "true".toList
  · rw [if_pos ⟨h1, rfl⟩, if_pos h1]
  · rw [if_neg (fun h => h1 h.1), if_neg h1]
    by_cases h2 : text = "false".toList
    · rw [if_pos ⟨h2, rfl⟩, if_pos h2]
    · rw [if_neg (fun h => h2 h.1), if_neg h2]

/-! ### Bit patterns -/

theorem low_mask {w : Nat} (hw : w < 32) : ((1#32 <<< w) - 1).toNat = 2 ^ w - 1 := by
  have hlt : 2 ^ w < 2 ^ 32 := Nat.pow_lt_pow_right (by omega) hw
  have hp := pow_pos w
  rw [BitVec.toNat_sub, BitVec.toNat_shiftLeft]
  have e1 : (1 : BitVec 32).toNat = 1 := rfl
  simp only [e1]
  simp only [BitVec.toNat_ofNat, Nat.shiftLeft_eq, Nat.reduceMod, Nat.reducePow, Nat.one_mul] at hlt ⊢
  omega

theorem high_bit {w : Nat} (h1 : 1 ≤ w) (hw : w < 32) :
    (1#32 <<< w) >>> 1 = BitVec.twoPow 32 (w - 1) := by
  apply BitVec.eq_of_toNat_eq
  have hlt : 2 ^ w < 2 ^ 32 := Nat.pow_lt_pow_right (by omega) hw
  have hh := pow_half h1
  rw [BitVec.toNat_ushiftRight, BitVec.toNat_shiftLeft, BitVec.toNat_twoPow]
  simp only [BitVec.toNat_ofNat, Nat.shiftLeft_eq, Nat.reduceMod, Nat.reducePow, Nat.one_mul,
    Nat.shiftRight_eq_div_pow, Nat.pow_one] at hlt ⊢
  omega

/-- C44, bit patterns of integer constants narrower than a word: the low bits
    are kept, the others are the sign (for signed types) or zero. -/
theorem bitPattern_narrow (w : Nat) (h1 : 1 ≤ w) (hw : w < 32) (signed : Bool) (x : Word) :
    parseDefaultValueBitPattern [x] (.int w signed) =
      [BitVec.ofInt 32 (ParseNumber.Spec.ofPattern w signed (x.toNat % 2 ^ w))] := by
  have hh := pow_half h1
  have hp := pow_pos (w - 1)
  have hlt : 2 ^ w < 2 ^ 32 := Nat.pow_lt_pow_right (by omega) hw
  simp only [Nat.reducePow] at hlt
  have hsign : ((BitVec.twoPow 32 (w - 1) &&& x) != 0) = true ↔ 2 ^ (w - 1) ≤ x.toNat % 2 ^ w := by
    rw [BitVec.and_comm, BitVec.and_twoPow, BitVec.getLsbD, Nat.testBit_eq_decide_div_mod_eq]
    have e : x.toNat / 2 ^ (w - 1) % 2 = (x.toNat % 2 ^ w) / 2 ^ (w - 1) := by
      rw [hh, Nat.mul_comm 2, Nat.mod_mul_right_div_self]
    rw [e]
    have hb : x.toNat % 2 ^ w < 2 ^ w := Nat.mod_lt _ (by omega)
    generalize x.toNat % 2 ^ w = y at hb ⊢
    have h2 : y / 2 ^ (w - 1) < 2 := (Nat.div_lt_iff_lt_mul hp).mpr (by omega)
    have h3 := Nat.le_div_iff_mul_le (k := 2 ^ (w - 1)) hp (x := 1) (y := y)
    rw [Nat.one_mul] at h3
    rw [← h3]
    clear h3
    generalize hq : y / 2 ^ (w - 1) = q at h2 ⊢
    by_cases hq1 : q = 1
    · subst hq1
      simp only [decide_true, if_true, Nat.le_refl, iff_true, bne_iff_ne, ne_eq]
      intro hz
      have := congrArg BitVec.toNat hz
      rw [BitVec.toNat_twoPow] at this
      simp only [Nat.reducePow, BitVec.ofNat_eq_ofNat, BitVec.toNat_ofNat, Nat.zero_mod] at this
      omega
    · have : q = 0 := by omega
      subst this
      simp
  have hmod : (x &&& ((1#32 <<< w) - 1)).toNat = x.toNat % 2 ^ w := by
    rw [BitVec.toNat_and, low_mask hw, Nat.and_two_pow_sub_one_eq_mod]
  unfold parseDefaultValueBitPattern
  simp only [List.length_cons, List.length_nil, hw, if_true, high_bit h1 hw]
  rw [if_pos (by omega)]
  have hb : x.toNat % 2 ^ w < 2 ^ w := Nat.mod_lt _ (by omega)
  have hc2 : ((2 : Int) ^ w) = ((2 ^ w : Nat) : Int) := by norm_cast
  by_cases hs : signed = true ∧ 2 ^ (w - 1) ≤ x.toNat % 2 ^ w
  · rw [if_pos (by rw [hs.1, hsign.mpr hs.2]; rfl)]
    simp only [ParseNumber.Spec.ofPattern, hs, and_self, if_true]
    congr 1
    -- or with the complement of the low bits
    have hnot : ~~~(BitVec.twoPow 32 (w - 1) - 1) = ~~~((1#32 <<< (w - 1)) - 1) := by
      congr 2
    rw [hnot]
    have hlow : (x &&& ((1#32 <<< (w - 1)) - 1)).toNat = x.toNat % 2 ^ (w - 1) := by
      rw [BitVec.toNat_and, low_mask (by omega), Nat.and_two_pow_sub_one_eq_mod]
    have hor : x ||| ~~~((1#32 <<< (w - 1)) - 1) =
        (x &&& ((1#32 <<< (w - 1)) - 1)) + ~~~((1#32 <<< (w - 1)) - 1) := by
      rw [BitVec.add_eq_or_of_and_eq_zero]
      · ext i hi
        simp only [BitVec.getElem_or, BitVec.getElem_and, BitVec.getElem_not]
        cases x[i] <;> cases ((1#32 <<< (w - 1)) - 1)[i] <;> rfl
      · ext i hi
        simp only [BitVec.getElem_and, BitVec.getElem_not, BitVec.getElem_zero]
        cases x[i] <;> cases ((1#32 <<< (w - 1)) - 1)[i] <;> rfl
    rw [hor]
    apply BitVec.eq_of_toNat_eq
    rw [BitVec.toNat_add, hlow, BitVec.toNat_not, low_mask (by omega), BitVec.toNat_ofInt, hc2]
    have hmm : x.toNat % 2 ^ (w - 1) = x.toNat % 2 ^ w - 2 ^ (w - 1) := by
      have : x.toNat % 2 ^ (w - 1) = (x.toNat % 2 ^ w) % 2 ^ (w - 1) := by
        rw [hh, Nat.mul_comm 2, Nat.mod_mul_right_mod]
      rw [this]
      generalize x.toNat % 2 ^ w = y at hb hs ⊢
      rw [Nat.mod_eq_sub_mod hs.2, Nat.mod_eq_of_lt (by omega)]
    rw [hmm]
    obtain ⟨_, hs⟩ := hs
    generalize x.toNat % 2 ^ w = y at hb hs ⊢
    simp only [Nat.reducePow]
    omega
  · have hcond : ¬ ((signed && BitVec.twoPow 32 (w - 1) &&& x != 0) = true) := by
      intro h
      rw [Bool.and_eq_true] at h
      exact hs ⟨h.1, hsign.mp h.2⟩
    rw [if_neg hcond]
    simp only [ParseNumber.Spec.ofPattern, hs, if_false]
    congr 1
    apply BitVec.eq_of_toNat_eq
    rw [hmod, BitVec.toNat_ofInt]
    generalize x.toNat % 2 ^ w = y at hb ⊢
    simp only [Nat.reducePow]
    omega

/-- C44, bit patterns of whole words are kept; patterns of the wrong length are
    rejected. -/
theorem bitPattern_words (w : Nat) (signed : Bool) (p : List Word) (hw : w = 32 ∨ w = 64) :
    parseDefaultValueBitPattern p (.int w signed) = if p.length * 32 = w then p else [] := by
  unfold parseDefaultValueBitPattern
  simp only
  rcases hw with rfl | rfl
  · by_cases h : p.length = 1
    · simp [h]
    · rw [if_neg (by omega), if_neg (by omega)]
  · by_cases h : p.length = 2
    · simp [h]
    · rw [if_neg (by omega), if_neg (by omega)]

theorem bitPattern_bool (p : List Word) :
    parseDefaultValueBitPattern p .bool = if ∃ x ∈ p, x ≠ 0 then [1] else [0] := by
  unfold parseDefaultValueBitPattern
  simp [List.any_eq_true]

/-! ### The pass -/

namespace Spec

/-- The instruction is a specialization constant with the given value. -/
def HasValue (i : Inst) (pattern : List Word) : Prop :=
  match i.op with
  | .specConstant => i.data = pattern
  | .specData => i.data = pattern
  | .specTrue => pattern.head? ≠ some 0
  | .specFalse => pattern.head? = some 0
  | _ => False

/-- The instruction `id` is decorated by a decoration of `target`: either it is
    `target` itself and not a decoration group, or `target` is a decoration group
    and the first `OpGroupDecorate` using it names `id`, a specialization constant,
    and no other defined id. -/
def Decorates (m : Module) (target id : Nat) : Prop :=
  (∃ i, m.defs target = some i ∧ i.op ≠ .decorationGroup ∧ id = target) ∨
  (∃ i, m.defs target = some i ∧ i.op = .decorationGroup ∧
    ∃ ts rest, m.groupTargets target = ts :: rest ∧ id ∈ ts ∧
      (∃ j, m.defs id = some j ∧ j.op ∈ [Op.specConstant, .specTrue, .specFalse, .specData]) ∧
      ∀ t ∈ ts, m.defs t ≠ none → t = id)

/-- What an annotation says: the instruction `id` has spec id `spec`. -/
def Says (m : Module) (a : Annotation) (id spec : Nat) : Prop :=
  ∃ target, a = .specId target spec ∧ Decorates m target id

end Spec

/-- `Says` in terms of the model. -/
def SaysM (m : Module) (a : Annotation) (id spec : Nat) : Prop :=
  ∃ target, a = .specId target spec ∧ specTarget m target = some id

theorem scanTargets_some (defs : Nat → Option Inst) (ts : List Nat) (f id : Nat) :
    scanTargets defs ts (some f) = some id ↔ id = f ∧ ∀ t ∈ ts, defs t ≠ none → t = f := by
  induction ts with
  | nil => simp [scanTargets, eq_comm]
  | cons t ts ih =>
    unfold scanTargets
    cases hd : defs t with
    | none => simp only [ih]; simp [hd]
    | some i =>
      simp only
      split
      · rename_i htf
        rw [ih]; subst htf; simp
      · rename_i htf
        simp only [reduceCtorEq, false_iff]
        rintro ⟨_, h⟩
        exact htf (h t (by simp) (by simp [hd]))

theorem canHaveSpecId_iff (i : Inst) :
    canHaveSpecId i = true ↔ i.op ∈ [Op.specConstant, .specTrue, .specFalse, .specData] := by
  unfold canHaveSpecId
  cases i.op <;> decide

theorem scanTargets_none (defs : Nat → Option Inst) (ts : List Nat) (id : Nat) :
    scanTargets defs ts none = some id ↔
      id ∈ ts ∧ (∃ j, defs id = some j ∧ canHaveSpecId j = true) ∧ ∀ t ∈ ts, defs t ≠ none → t = id := by
  induction ts with
  | nil => simp [scanTargets]
  | cons t ts ih =>
    unfold scanTargets
    cases hd : defs t with
    | none =>
      simp only [ih]
      constructor
      · rintro ⟨h1, h2, h3⟩
        refine ⟨List.mem_cons_of_mem _ h1, h2, ?_⟩
        intro u hu hn
        rcases List.mem_cons.mp hu with rfl | hu
        · exact absurd hd hn
        · exact h3 u hu hn
      · rintro ⟨h1, ⟨j, hj, hc⟩, h3⟩
        refine ⟨?_, ⟨j, hj, hc⟩, fun u hu => h3 u (List.mem_cons_of_mem _ hu)⟩
        rcases List.mem_cons.mp h1 with rfl | h1
        · rw [hd] at hj; cases hj
        · exact h1
    | some i =>
      simp only
      split
      · rename_i hc
        rw [scanTargets_some]
        constructor
        · rintro ⟨rfl, h⟩
          refine ⟨by simp, ⟨i, hd, hc⟩, ?_⟩
          intro u hu hn
          rcases List.mem_cons.mp hu with rfl | hu
          · rfl
          · exact h u hu hn
        · rintro ⟨h1, _, h3⟩
          have := h3 t (by simp) (by simp [hd])
          subst this
          exact ⟨rfl, fun u hu => h3 u (List.mem_cons_of_mem _ hu)⟩
      · rename_i hc
        simp only [reduceCtorEq, false_iff]
        rintro ⟨_, ⟨j, hj, hcj⟩, h3⟩
        have := h3 t (by simp) (by simp [hd])
        subst this
        rw [hd] at hj; cases hj
        exact hc hcj

theorem says_iff (m : Module) (a : Annotation) (id spec : Nat) : Says m a id spec ↔ SaysM m a id spec := by
  unfold Says SaysM
  refine exists_congr fun target => and_congr_right fun _ => ?_
  unfold Decorates specTarget
  cases hd : m.defs target with
  | none => simp
  | some i =>
    by_cases hg : i.op = .decorationGroup
    · simp only [hg, if_true]
      unfold groupTarget
      cases hgt : m.groupTargets target with
      | nil => simp [hg]
      | cons ts rest =>
        simp only [scanTargets_none, canHaveSpecId_iff]
        simp [hg]
    · simp only [hg, if_false]
      simp [hg]
      exact eq_comm

/-- Same module up to the opcode of boolean constants and the literals. -/
def Similar (m m' : Module) : Prop :=
  m'.annotations = m.annotations ∧ m'.groupTargets = m.groupTargets ∧
  ∀ x, (m'.defs x).map (fun i => (decide (i.op = .decorationGroup), canHaveSpecId i, i.type)) =
    (m.defs x).map (fun i => (decide (i.op = .decorationGroup), canHaveSpecId i, i.type))

theorem scanTargets_congr {d d' : Nat → Option Inst}
    (h : ∀ x, (d' x).map canHaveSpecId = (d x).map canHaveSpecId) (ts : List Nat) :
    ∀ f, scanTargets d' ts f = scanTargets d ts f := by
  induction ts with
  | nil => intro f; rfl
  | cons t ts ih =>
    intro f
    unfold scanTargets
    have := h t
    cases h1 : d t <;> cases h2 : d' t <;> rw [h1, h2] at this <;> simp at this
    · exact ih f
    · simp only [this]
      cases f with
      | none => simp only [ih]
      | some f => simp only [ih]

theorem similar_def {m m' : Module} (h : Similar m m') (x : Nat) :
    (m.defs x = none ∧ m'.defs x = none) ∨
    ∃ i i', m.defs x = some i ∧ m'.defs x = some i' ∧
      (i'.op = .decorationGroup ↔ i.op = .decorationGroup) ∧ canHaveSpecId i' = canHaveSpecId i ∧
      i'.type = i.type := by
  have := h.2.2 x
  cases h1 : m.defs x <;> cases h2 : m'.defs x <;> rw [h1, h2] at this <;> simp at this
  · exact .inl ⟨rfl, rfl⟩
  · exact .inr ⟨_, _, rfl, rfl, this⟩

theorem specTarget_congr {m m' : Module} (h : Similar m m') (t : Nat) :
    specTarget m' t = specTarget m t := by
  have hc : ∀ x, (m'.defs x).map canHaveSpecId = (m.defs x).map canHaveSpecId := by
    intro x
    rcases similar_def h x with ⟨h1, h2⟩ | ⟨i, i', h1, h2, _, h4, _⟩
    · rw [h1, h2]
    · rw [h1, h2]; simp [h4]
  have hgt : groupTarget m' t = groupTarget m t := by
    unfold groupTarget
    rw [h.2.1]
    cases m.groupTargets t with
    | nil => rfl
    | cons ts _ => exact scanTargets_congr hc ts none
  unfold specTarget
  rcases similar_def h t with ⟨h1, h2⟩ | ⟨i, i', h1, h2, h3, _, _⟩
  · rw [h1, h2]
  · rw [h1, h2]
    simp only [h3, hgt]

theorem Similar.refl (m : Module) : Similar m m := ⟨rfl, rfl, fun _ => rfl⟩
theorem Similar.trans {a b c : Module} (h : Similar a b) (h' : Similar b c) : Similar a c :=
  ⟨h'.1.trans h.1, h'.2.1.trans h.2.1, fun x => (h'.2.2 x).trans (h.2.2 x)⟩

theorem update_shape (i : Inst) (p : List Word) :
    ((update i p).1.op = .decorationGroup ↔ i.op = .decorationGroup) ∧
    canHaveSpecId (update i p).1 = canHaveSpecId i ∧ (update i p).1.type = i.type := by
  obtain ⟨op, ty, data⟩ := i
  cases op <;> simp only [update] <;> (try split) <;> simp [canHaveSpecId]

theorem update_false (i : Inst) (p : List Word) (h : (update i p).2 = false) : (update i p).1 = i := by
  obtain ⟨op, ty, data⟩ := i
  cases op <;> simp only [update] at h ⊢ <;> split at h <;> simp_all

theorem update_value (i : Inst) (p : List Word) (hc : canHaveSpecId i = true)
    (hl : i.op = .specData → i.data.length = p.length) :
    HasValue (update i p).1 p ∧ ((update i p).1.op = .specData → (update i p).1.data.length = p.length) := by
  obtain ⟨op, ty, data⟩ := i
  cases op
  · simp only [update]
    split <;> rename_i h
    · simp [HasValue]
    · simp only [ne_eq, Decidable.not_not] at h
      simp [HasValue, h]
  · simp only [update]
    split <;> rename_i h
    · simpa [HasValue] using h
    · simpa [HasValue] using h
  · simp only [update]
    split <;> rename_i h
    · simpa [HasValue] using h
    · simpa [HasValue] using h
  · simp only [update]
    split <;> rename_i h
    · simp [HasValue]
    · simp only [ne_eq, Decidable.not_not] at h
      have hl := hl rfl
      simp only at hl
      have hle : data.length ≤ 1 := by
        rw [← h] at hl
        simp only [List.length_take] at hl
        omega
      have : data = p := by rw [← h, List.take_of_length_le hle]
      simp [HasValue, this]
  · cases hc
  · cases hc

/-- What one annotation does. -/
theorem step_cases (ef : Text → Nat → Option (List Word)) (vs : Values) (m m1 : Module) (a : Annotation)
    (ch : Bool) (h : step ef vs m a = some (m1, ch)) :
    (m1 = m ∧ ch = false ∧ ∀ id spec i ty p, SaysM m a id spec → m.defs id = some i → i.type = some ty →
        newValue ef vs spec ty = some p → p = []) ∨
    (∃ id spec i ty p, SaysM m a id spec ∧ hasValue vs spec = true ∧ m.defs id = some i ∧ i.type = some ty ∧
        newValue ef vs spec ty = some p ∧ p ≠ [] ∧
        m1 = { m with defs := fun x => if x = id then some (update i p).1 else m.defs x } ∧
        ch = (update i p).2) := by
  have hval : ∀ spec ty p, hasValue vs spec = false → newValue ef vs spec ty = some p → False := by
    intro spec ty p h1 h2
    cases vs <;> simp only [hasValue, newValue, Option.isSome_eq_false_iff, Option.isNone_iff_eq_none] at h1 h2 <;>
      rw [h1] at h2 <;> cases h2
  unfold step at h
  cases a with
  | other =>
    cases h
    left
    refine ⟨rfl, rfl, ?_⟩
    rintro id spec i ty p ⟨t, he, _⟩
    cases he
  | specId target spec =>
    simp only at h
    cases ht : specTarget m target with
    | none =>
      rw [ht] at h; cases h
      left
      refine ⟨rfl, rfl, ?_⟩
      rintro id spec i ty p ⟨t, he, h2⟩
      cases he
      rw [ht] at h2; cases h2
    | some id =>
      rw [ht] at h
      simp only at h
      cases hd : m.defs id with
      | none =>
        rw [hd] at h; cases h
        left
        refine ⟨rfl, rfl, ?_⟩
        rintro id spec i ty p ⟨t, he, h2⟩ h3
        cases he
        rw [ht] at h2; cases h2
        rw [hd] at h3; cases h3
      | some i =>
        rw [hd] at h
        simp only at h
        split at h
        · rename_i hv
          cases h
          left
          refine ⟨rfl, rfl, ?_⟩
          rintro id spec i ty p ⟨t, he, h2⟩ h3 h4 h5
          cases he
          exact (hval _ _ _ hv h5).elim
        · rename_i hv
          cases hty : i.type with
          | none => rw [hty] at h; cases h
          | some ty =>
            rw [hty] at h
            simp only at h
            cases hn : newValue ef vs spec ty with
            | none =>
              rw [hn] at h; cases h
              left
              refine ⟨rfl, rfl, ?_⟩
              rintro id spec i ty p ⟨t, he, h2⟩ h3 h4 h5
              cases he
              rw [ht] at h2; cases h2
              rw [hd] at h3; cases h3
              rw [hty] at h4; cases h4
              rw [hn] at h5; cases h5
            | some p =>
              rw [hn] at h
              simp only at h
              split at h
              · rename_i hp
                cases h
                left
                refine ⟨rfl, rfl, ?_⟩
                rintro id spec i ty p ⟨t, he, h2⟩ h3 h4 h5
                cases he
                rw [ht] at h2; cases h2
                rw [hd] at h3; cases h3
                rw [hty] at h4; cases h4
                rw [hn] at h5; cases h5
                exact hp
              · rename_i hp
                simp only [Option.some.injEq, Prod.mk.injEq] at h
                right
                exact ⟨id, spec, i, ty, p, ⟨target, rfl, ht⟩, by simpa using hv, hd, hty, hn, hp, h.1.symm, h.2.symm⟩

theorem step_similar {ef vs m m1 a ch} (h : step ef vs m a = some (m1, ch)) : Similar m m1 := by
  rcases step_cases ef vs m m1 a ch h with ⟨rfl, _⟩ | ⟨id, spec, i, ty, p, _, _, hd, _, _, _, rfl, _⟩
  · exact Similar.refl _
  · refine ⟨rfl, rfl, ?_⟩
    intro x
    simp only
    by_cases hx : x = id
    · subst hx
      simp only [if_true, hd, Option.map_some, Option.some.injEq, Prod.mk.injEq]
      obtain ⟨h1, h2, h3⟩ := update_shape i p
      exact ⟨by simp [h1], h2, h3⟩
    · simp [hx]

theorem says_congr {m m' : Module} (h : Similar m m') (a : Annotation) (id spec : Nat) :
    SaysM m' a id spec ↔ SaysM m a id spec := by
  unfold SaysM
  simp only [specTarget_congr h]

theorem run_lemma (ef : Text → Nat → Option (List Word)) (vs : Values) (m0 : Module) (as : List Annotation) :
    ∀ m mod m' mod', Similar m0 m → run ef vs as m mod = some (m', mod') →
    (∀ x, (∀ a ∈ as, ∀ spec, SaysM m0 a x spec → hasValue vs spec = false) → m'.defs x = m.defs x) ∧
    (mod' = false → mod = false ∧ m'.defs = m.defs) ∧
    (∀ id spec i ty p, m.defs id = some i → canHaveSpecId i = true → i.type = some ty →
      (∀ a ∈ as, ∀ s, SaysM m0 a id s → s = spec) →
      newValue ef vs spec ty = some p → p ≠ [] → (i.op = .specData → i.data.length = p.length) →
      ((∃ a ∈ as, SaysM m0 a id spec) ∨ HasValue i p) →
      ∃ i', m'.defs id = some i' ∧ HasValue i' p ∧ i'.type = some ty) := by
  induction as with
  | nil =>
    intro m mod m' mod' _ h
    cases h
    refine ⟨fun _ _ => rfl, fun h => ⟨h, rfl⟩, ?_⟩
    rintro id spec i ty p hd hc hty - hn hp hl (⟨a, ha, _⟩ | hv)
    · cases ha
    · exact ⟨i, hd, hv, hty⟩
  | cons a as ih =>
    intro m mod m' mod' hs h
    unfold run at h
    cases hst : step ef vs m a with
    | none => rw [hst] at h; cases h
    | some q =>
      obtain ⟨m1, ch⟩ := q
      rw [hst] at h
      simp only at h
      have hs1 := step_similar hst
      obtain ⟨i1, i2, i3⟩ := ih m1 _ m' mod' (hs.trans hs1) h
      rcases step_cases ef vs m m1 a ch hst with ⟨rfl, rfl, hno⟩ | ⟨id, spec, i, ty, p, hsay, hhv, hd, hty, hn, hp, rfl, rfl⟩
      · refine ⟨fun x hx => i1 x (fun a ha => hx a (List.mem_cons_of_mem _ ha)), ?_, ?_⟩
        · intro hm; have := i2 hm; simpa using this
        · intro id spec i ty p hd hc hty hall hn hp hl hor
          refine i3 id spec i ty p hd hc hty (fun a ha => hall a (List.mem_cons_of_mem _ ha)) hn hp hl ?_
          rcases hor with ⟨b, hb, hsay⟩ | hv
          · rcases List.mem_cons.mp hb with rfl | hb
            · exact absurd (hno id spec i ty p ((says_congr hs _ _ _).mpr hsay) hd hty hn) hp
            · exact .inl ⟨b, hb, hsay⟩
          · exact .inr hv
      · have hsay0 := (says_congr hs _ _ _).mp hsay
        refine ⟨?_, ?_, ?_⟩
        · intro x hx
          rw [i1 x (fun a ha => hx a (List.mem_cons_of_mem _ ha))]
          have hne : x ≠ id := by
            rintro rfl
            have := hx a (List.mem_cons_self ..) spec hsay0
            rw [hhv] at this; cases this
          simp [hne]
        · intro hm
          obtain ⟨h1, h2⟩ := i2 hm
          simp only [Bool.or_eq_false_iff] at h1
          refine ⟨h1.1, ?_⟩
          rw [h2]
          funext x
          simp only
          split
          · rename_i hx; subst hx; rw [hd, update_false i p h1.2]
          · rfl
        · intro id' spec' j ty' p' hd' hc hty' hall hn' hp' hl hor
          have hall' : ∀ b ∈ as, ∀ s, SaysM m0 b id' s → s = spec' := fun b hb => hall b (List.mem_cons_of_mem _ hb)
          by_cases hid : id' = id
          · subst hid
            have hspec : spec = spec' := hall a (List.mem_cons_self ..) spec hsay0
            subst hspec
            rw [hd] at hd'; cases hd'
            rw [hty] at hty'; cases hty'
            rw [hn] at hn'; cases hn'
            obtain ⟨u1, u2⟩ := update_value i p hc hl
            obtain ⟨s1, s2, s3⟩ := update_shape i p
            exact i3 id' spec (update i p).1 ty p (by simp) (by rw [s2, hc]) (by rw [s3, hty]) hall' hn hp u2 (.inr u1)
          · refine i3 id' spec' j ty' p' (by simp [hid, hd']) hc hty' hall' hn' hp' hl ?_
            rcases hor with ⟨b, hb, hsay'⟩ | hv
            · rcases List.mem_cons.mp hb with rfl | hb
              · obtain ⟨t1, e1, q1⟩ := hsay0
                obtain ⟨t2, e2, q2⟩ := hsay'
                rw [e1] at e2
                cases e2
                rw [q1] at q2
                cases q2
                exact absurd rfl hid
              · exact .inl ⟨b, hb, hsay'⟩
            · exact .inr hv

/-- C44, the pass.  For every module in which no instruction is given two spec
    ids, the pass gives every specialization constant for whose spec id a usable
    value was supplied exactly that value, leaves every instruction without
    supplied value alone, and reports no change only if nothing changed.  For
    `OpSpecConstantDataKHR` the supplied pattern must be as long as the data (see
    `specData_prefix`). -/
theorem process_spec (ef : Text → Nat → Option (List Word)) (vs : Values) (m m' : Module) (modified : Bool)
    (h : process ef vs m = some (m', modified)) :
    (∀ id spec i ty p, m.defs id = some i → canHaveSpecId i = true → i.type = some ty →
      (∃ a ∈ m.annotations, Says m a id spec) →
      (∀ a ∈ m.annotations, ∀ s, Says m a id s → s = spec) →
      newValue ef vs spec ty = some p → p ≠ [] → (i.op = .specData → i.data.length = p.length) →
      ∃ i', m'.defs id = some i' ∧ HasValue i' p ∧ i'.type = some ty) ∧
    (∀ x, (∀ a ∈ m.annotations, ∀ spec, Says m a x spec → hasValue vs spec = false) →
      m'.defs x = m.defs x) ∧
    (modified = false → m'.defs = m.defs) := by
  simp only [says_iff]
  obtain ⟨h1, h2, h3⟩ := run_lemma ef vs m m.annotations m false m' modified (Similar.refl m) h
  refine ⟨?_, h1, fun hm => (h2 hm).2⟩
  intro id spec i ty p hd hc hty hex hall hn hp hl
  exact h3 id spec i ty p hd hc hty hall hn hp hl (.inl hex)

/-- The pass does not dereference a null type if every instruction given a spec
    id has a type. -/
theorem process_total (ef : Text → Nat → Option (List Word)) (vs : Values) (m : Module)
    (hty : ∀ a ∈ m.annotations, ∀ id spec, Says m a id spec → ∀ i, m.defs id = some i → i.type ≠ none) :
    ∃ r, process ef vs m = some r := by
  simp only [says_iff] at hty
  have : ∀ as m1 mod, Similar m m1 → (∀ a ∈ as, a ∈ m.annotations) → ∃ r, run ef vs as m1 mod = some r := by
    intro as
    induction as with
    | nil => intro m1 mod _ _; exact ⟨_, rfl⟩
    | cons a as ih =>
      intro m1 mod hs hmem
      unfold run
      cases hst : step ef vs m1 a with
      | some q =>
        obtain ⟨m2, ch⟩ := q
        exact ih m2 _ (hs.trans (step_similar hst)) (fun b hb => hmem b (List.mem_cons_of_mem _ hb))
      | none =>
        exfalso
        unfold step at hst
        cases a with
        | other => cases hst
        | specId target spec =>
          simp only at hst
          cases ht : specTarget m1 target with
          | none => rw [ht] at hst; cases hst
          | some id =>
            rw [ht] at hst
            simp only at hst
            cases hd : m1.defs id with
            | none => rw [hd] at hst; cases hst
            | some i =>
              rw [hd] at hst
              simp only at hst
              split at hst
              · cases hst
              · rcases similar_def hs id with ⟨_, h2⟩ | ⟨j, j', h1, h2, _, _, h5⟩
                · rw [h2] at hd; cases hd
                · rw [h2] at hd; cases hd
                  have := hty _ (hmem _ (List.mem_cons_self ..)) id spec
                    ((says_congr hs _ _ _).mp ⟨target, rfl, ht⟩) j h1
                  cases hit : i.type with
                  | none => rw [hit] at h5; exact this h5.symm
                  | some ty =>
                    rw [hit] at hst
                    simp only at hst
                    split at hst
                    · cases hst
                    · split at hst <;> cases hst
  exact this m.annotations m false (Similar.refl m) (fun _ h => h)

/-! ### Deviations -/

/-- A one-word pattern for an `OpSpecConstantDataKHR` whose first word it equals
    is taken to be no change: the data keep their other words. -/
theorem specData_prefix :
    update ⟨.specData, some .array, [7, 8]⟩ [7] = (⟨.specData, some .array, [7, 8]⟩, false) := by
  decide

/-- An integer type whose width is above 32 but no multiple of 32 never accepts a
    bit pattern. -/
theorem bitPattern_odd_width (w : Nat) (hw : 32 < w) (h : w % 32 ≠ 0) (signed : Bool) (p : List Word) :
    parseDefaultValueBitPattern p (.int w signed) = [] := by
  unfold parseDefaultValueBitPattern
  simp only
  rw [if_neg (by omega)]

/-- A specialization constant without type makes the pass dereference null. -/
theorem process_untyped :
    process (fun _ _ => none) (.str [(1, "5".toList)])
      ⟨[.specId 3 1], fun x => if x = 3 then some ⟨.other, none, []⟩ else none, fun _ => []⟩ = none := by
  rfl

/-! ### Examples -/

example : Denotes " 100:1.5\n-0:0x10 ".toList [(100, "1.5".toList), (0, "0x10".toList)] := by
  refine ⟨by simp, ⟨["100:1.5".toList, "-0:0x10".toList], ?_, ?_⟩, by decide⟩
  · exact .word (sp := " ".toList) (w := "100:1.5".toList) (rest := "\n-0:0x10 ".toList)
      (by decide) (by decide) (by decide) (by intro c h; cases h; rfl)
      (.word (sp := "\n".toList) (w := "-0:0x10".toList) (rest := " ".toList)
        (by decide) (by decide) (by decide) (by intro c h; cases h; rfl) (.done (by decide)))
  · refine .cons ⟨"100".toList, rfl, ?_, by decide, by decide, by decide, by decide⟩
      (.cons ⟨"-0".toList, rfl, ?_, by decide, by decide, by decide, by decide⟩ .nil)
    · exact .plain (h := false) (n := 100) (.decimal (d := 1) (ds := [0, 0])
        (.cons (by unfold ParseNumber.Spec.IsDigit; decide) (.cons (by unfold ParseNumber.Spec.IsDigit; decide)
          (.cons (by unfold ParseNumber.Spec.IsDigit; decide) .nil))) (by decide))
    · exact .minus (h := false) (n := 0) (.octal .nil)

example : (process (fun _ _ => none) (.str [(1, "-5".toList), (2, "false".toList)])
    ⟨[.specId 3 1, .other, .specId 9 2],
     fun x => if x = 3 then some ⟨.specConstant, some (.int 8 true), [7]⟩
       else if x = 4 then some ⟨.specTrue, some .bool, []⟩
       else if x = 9 then some ⟨.decorationGroup, none, []⟩ else none,
     fun x => if x = 9 then [[4]] else []⟩).map (fun r => (r.1.defs 3, r.1.defs 4, r.2)) =
    some (some ⟨.specConstant, some (.int 8 true), [0xFFFFFFFB]⟩, some ⟨.specFalse, some .bool, []⟩, true) := by
  decide +kernel

end Verif.SpecConst
