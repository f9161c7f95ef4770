import Verif.Disasm.Ids
import Verif.Binary.Pattern
/-!
Masks: the printed names and what the assembler makes of them.
-/
set_option linter.unusedSimpArgs false
set_option linter.unusedVariables false
namespace Verif.Disasm
open Verif.ParseNumber (Text NumberType)
open Verif.Binary (OT Grammar Pattern pushTypes)
open Verif.Asm hiding Inst Word
open Spec

theorem splitBar_name {s : Text} (h : '|' ∉ s) : splitBar s = (s, none) := by
  induction s with
  | nil => rfl
  | cons c s ih =>
    simp only [List.mem_cons, not_or] at h
    rw [splitBar, if_neg (Ne.symm h.1), ih h.2]

theorem splitBar_bar {s : Text} (h : '|' ∉ s) (r : Text) : splitBar (s ++ '|' :: r) = (s, some r) := by
  induction s with
  | nil => simp [splitBar]
  | cons c s ih =>
    simp only [List.mem_cons, not_or] at h
    rw [List.cons_append, splitBar, if_neg (Ne.symm h.1), ih h.2]

theorem name_no_bar {s : Text} (h : NameOk s) : '|' ∉ s := by
  intro hc
  have := (valid_chars h.1).2 _ hc
  revert this; decide

theorem parseMaskLoop_one {A : AGrammar} {t : OT} {name : Text} {v value : Word} {ops : List OT} (hn : NameOk name)
    (hv : A.operandByName t name = some (v, ops)) : parseMaskLoop A t name value = some (value ||| v) := by
  rw [parseMaskLoop]
  split
  rename_i a r hs
  rw [splitBar_name (name_no_bar hn)] at hs
  cases hs
  rw [hv]

theorem parseMaskLoop_more {A : AGrammar} {t : OT} {name r : Text} {v value : Word} {ops : List OT}
    (hn : NameOk name) (hv : A.operandByName t name = some (v, ops)) :
    parseMaskLoop A t (name ++ '|' :: r) value = parseMaskLoop A t r (value ||| v) := by
  rw [parseMaskLoop]
  split
  rename_i a r' hs
  rw [splitBar_bar (name_no_bar hn)] at hs
  cases hs
  rw [hv]

def barChar (c : Char) : Prop := c = '|' ∨ (c == '_' || isAlnum c) = true

/-- The text after a name, for the bits `rem`. -/
def MaskTail (A : AGrammar) (t : OT) (T : Text) (rem : Word) : Prop :=
  (∀ c ∈ T, barChar c) ∧
  ((rem = 0 ∧ T = []) ∨ ∃ T', T = '|' :: T' ∧ ∀ value, parseMaskLoop A t T' value = some (value ||| rem))

theorem or_xor_bit (value rem bit : Word) (h : rem &&& bit = bit) : value ||| bit ||| (rem ^^^ bit) = value ||| rem := by
  apply BitVec.eq_of_getLsbD_eq
  intro i hi
  have : (rem &&& bit).getLsbD i = bit.getLsbD i := by rw [h]
  rw [BitVec.getLsbD_and] at this
  simp only [BitVec.getLsbD_or, BitVec.getLsbD_xor]
  cases ha : rem.getLsbD i <;> cases hb : bit.getLsbD i <;> cases value.getLsbD i <;> simp_all

theorem and_bit_eq {rem : Word} {k : Nat} (hk : k < 32) (h : rem.getLsbD k = true) :
    rem &&& (1#32 <<< k) = 1#32 <<< k := by
  apply BitVec.eq_of_getLsbD_eq
  intro i hi
  rw [BitVec.getLsbD_and, BitVec.getLsbD_shiftLeft]
  by_cases hik : i = k
  · subst hik; simp [h]
  · have : BitVec.getLsbD 1#32 (i - k) = true → i < k := by
      intro hb
      simp at hb
      omega
    cases hb : BitVec.getLsbD 1#32 (i - k) with
    | false => simp
    | true => have := this hb; simp [this]

theorem maskTail_cons {A : AGrammar} {t : OT} {name T : Text} {rem bit : Word} {ops : List OT} (hn : NameOk name)
    (hv : A.operandByName t name = some (bit, ops)) (hb : rem &&& bit = bit) (hT : MaskTail A t T (rem ^^^ bit)) :
    (∀ c ∈ name ++ T, barChar c) ∧ ∀ value, parseMaskLoop A t (name ++ T) value = some (value ||| rem) := by
  obtain ⟨hc, hT⟩ := hT
  refine ⟨?_, ?_⟩
  · intro c hcm
    rcases List.mem_append.mp hcm with h | h
    · exact .inr ((valid_chars hn.1).2 c h)
    · exact hc c h
  · intro value
    rcases hT with ⟨h0, rfl⟩ | ⟨T', rfl, hp⟩
    · rw [List.append_nil, parseMaskLoop_one hn hv]
      have := or_xor_bit value rem bit hb
      rw [h0] at this
      rw [← this]; simp
    · rw [parseMaskLoop_more hn hv, hp, or_xor_bit value rem bit hb]

/-- Every bit of the mask has a name, and the name stands for it. -/
def BitNames (A : AGrammar) (N : Names) (t r : OT) (rem : Word) : Prop :=
  ∀ b, b < 32 → rem.getLsbD b = true → ∃ name ops, N.operand r (1#32 <<< b) = some name ∧ NameOk name ∧
    A.operandByName t name = some (1#32 <<< b, ops)

theorem xor_bit_low {rem : Word} {k : Nat} (hk : k < 32) (hb : rem.getLsbD k = true)
    (hlow : ∀ j, j < k → rem.getLsbD j = false) : ∀ j, j < k + 1 → (rem ^^^ 1#32 <<< k).getLsbD j = false := by
  intro j hj
  rw [BitVec.getLsbD_xor, BitVec.getLsbD_shiftLeft]
  by_cases hjk : j = k
  · subst hjk; simp [hb, hk]
  · have : j < k := by omega
    simp [hlow j this, this]

theorem xor_bit_high {rem : Word} {k j : Nat} (hk : k < 32) (hb : rem.getLsbD k = true)
    (h : (rem ^^^ 1#32 <<< k).getLsbD j = true) : rem.getLsbD j = true := by
  rw [BitVec.getLsbD_xor, BitVec.getLsbD_shiftLeft] at h
  by_cases hjk : j = k
  · subst hjk; exact hb
  · cases hr : rem.getLsbD j with
    | true => rfl
    | false =>
      exfalso
      rw [hr] at h
      simp at h
      omega

theorem zero_of_low {rem : Word} (h : ∀ j, j < 32 → rem.getLsbD j = false) : rem = 0 := by
  apply BitVec.eq_of_getLsbD_eq
  intro i hi
  rw [h i hi]; simp

theorem bitNames_xor {A : AGrammar} {N : Names} {t r : OT} {rem : Word} {k : Nat} (hk : k < 32)
    (hb : rem.getLsbD k = true) (h : BitNames A N t r rem) : BitNames A N t r (rem ^^^ 1#32 <<< k) :=
  fun b hb32 hbit => h b hb32 (xor_bit_high hk hb hbit)

theorem maskNames_true {A : AGrammar} {N : Names} {t r : OT} : ∀ (n k : Nat) (rem : Word), k + n = 32 →
    (∀ j, j < k → rem.getLsbD j = false) → BitNames A N t r rem →
    ∃ T, maskNames N r n k rem true = some T ∧ MaskTail A t T rem := by
  intro n
  induction n with
  | zero =>
    intro k rem hk hlow _
    have : rem = 0 := zero_of_low (fun j hj => hlow j (by omega))
    subst this
    exact ⟨[], rfl, by simp, .inl ⟨rfl, rfl⟩⟩
  | succ n ih =>
    intro k rem hk hlow hN
    by_cases h0 : rem = 0
    · subst h0
      exact ⟨[], by simp [maskNames], by simp, .inl ⟨rfl, rfl⟩⟩
    · rw [maskNames, if_neg h0]
      simp only
      by_cases hb : rem.getLsbD k = true
      · rw [if_pos ((Binary.and_bit rem k (by omega)).mpr hb)]
        obtain ⟨name, ops, hn1, hn2, hn3⟩ := hN k (by omega) hb
        obtain ⟨T, hT1, hT2⟩ := ih (k + 1) (rem ^^^ 1#32 <<< k) (by omega) (xor_bit_low (by omega) hb hlow)
          (bitNames_xor (by omega) hb hN)
        rw [hn1]
        simp only [hT1, Option.map_some, if_true]
        obtain ⟨hc, hp⟩ := maskTail_cons hn2 hn3 (and_bit_eq (by omega) hb) hT2
        refine ⟨_, rfl, ?_, .inr ⟨name ++ T, by simp, hp⟩⟩
        intro c hcm
        rw [List.cons_append] at hcm
        rcases List.mem_cons.mp hcm with rfl | hcm
        · exact .inl rfl
        · exact hc c hcm
      · rw [if_neg (fun hc => hb ((Binary.and_bit rem k (by omega)).mp hc))]
        apply ih _ _ (by omega) _ hN
        intro j hj
        by_cases hjk : j = k
        · subst hjk; simpa using hb
        · exact hlow j (by omega)

theorem maskNames_false {A : AGrammar} {N : Names} {t r : OT} : ∀ (n k : Nat) (rem : Word), k + n = 32 → rem ≠ 0 →
    (∀ j, j < k → rem.getLsbD j = false) → BitNames A N t r rem →
    ∃ name T, maskNames N r n k rem false = some (name ++ T) ∧ NameOk name ∧ (∀ c ∈ name ++ T, barChar c) ∧
      (T = [] ∨ ∃ T', T = '|' :: T') ∧ ∀ value, parseMaskLoop A t (name ++ T) value = some (value ||| rem) := by
  intro n
  induction n with
  | zero =>
    intro k rem hk h0 hlow _
    exact absurd (zero_of_low (fun j hj => hlow j (by omega))) h0
  | succ n ih =>
    intro k rem hk h0 hlow hN
    rw [maskNames, if_neg h0]
    simp only
    by_cases hb : rem.getLsbD k = true
    · rw [if_pos ((Binary.and_bit rem k (by omega)).mpr hb)]
      obtain ⟨name, ops, hn1, hn2, hn3⟩ := hN k (by omega) hb
      obtain ⟨T, hT1, hT2⟩ := maskNames_true n (k + 1) (rem ^^^ 1#32 <<< k) (by omega)
        (xor_bit_low (by omega) hb hlow) (bitNames_xor (by omega) hb hN)
      rw [hn1]
      simp only [hT1, Option.map_some, Bool.false_eq_true, if_false]
      obtain ⟨hc, hp⟩ := maskTail_cons hn2 hn3 (and_bit_eq (by omega) hb) hT2
      refine ⟨name, T, rfl, hn2, hc, ?_, hp⟩
      rcases hT2.2 with ⟨-, h⟩ | ⟨T', h, -⟩
      · exact .inl h
      · exact .inr ⟨T', h⟩
    · rw [if_neg (fun hc => hb ((Binary.and_bit rem k (by omega)).mp hc))]
      apply ih _ _ (by omega) h0 _ hN
      intro j hj
      by_cases hjk : j = k
      · subst hjk; simpa using hb
      · exact hlow j (by omega)

theorem startsWithOp_bar {tok : Text} (h0 : startsWithOp tok = false) (hne : tok ≠ []) (k : Text) :
    startsWithOp (tok ++ '|' :: k) = false := by
  match tok, h0, hne with
  | [a], h0, _ =>
    match k with
    | [] => rfl
    | c :: k => simp [startsWithOp]
  | [a, b], h0, _ => simp [startsWithOp]
  | a :: b :: c :: r, h0, _ => exact h0

theorem plain_bar {c : Char} (h : barChar c) : plain c = true := by
  rcases h with rfl | h
  · decide
  · exact plain_valid h

theorem solid_mask {name T : Text} (hn : NameOk name) (hc : ∀ c ∈ name ++ T, barChar c)
    (hT : T = [] ∨ ∃ T', T = '|' :: T') : Solid (name ++ T) := by
  obtain ⟨h1, h2⟩ := valid_chars hn.1
  obtain ⟨c, r, rfl⟩ : ∃ c r, name = c :: r := by
    cases name with
    | nil => exact absurd rfl h1
    | cons c r => exact ⟨c, r, rfl⟩
  have hd : ∀ d, (d == '_' || isAlnum d) = false → ((c :: r) ++ T).head? ≠ some d := by
    intro d hd
    have := valid_head hn.1 hd
    simpa using this
  refine solid_plain (by simp) (fun c hcm => plain_bar (hc c hcm)) ?_ (hd _ (by decide)) (hd _ (by decide)) ?_
  · rcases hT with rfl | ⟨T', rfl⟩
    · rw [List.append_nil]; exact hn.2
    · exact startsWithOp_bar hn.2 (by simp) T'
  · intro he
    have := hd '=' (by decide)
    rw [he] at this
    exact this rfl

/-- The operands of a mask in the assembler, as in the parser. -/
theorem pushMask_eq (A : AGrammar) (t : OT) (mask : Word) (k : Nat) (p : Pattern) (hk : k ≤ 32) :
    pushMask A t mask k p = Binary.Spec.maskOperands (fun b => A.operandByValue t (1#32 <<< b)) mask k ++ p := by
  rw [← Binary.pushForMask_eq]
  induction k generalizing p with
  | zero => rfl
  | succ k ih =>
    rw [pushMask, Binary.pushForMask]
    have hb := Binary.and_bit mask k (by omega)
    have hcomm : (1#32 <<< k &&& mask) = (mask &&& 1#32 <<< k) := BitVec.and_comm ..
    simp only [hcomm]
    by_cases h : mask.getLsbD k = true
    · rw [if_pos (hb.mpr h), if_pos h]
      split <;> rename_i hv <;> simp only [hv] <;> exact ih _ (by omega)
    · rw [if_neg (fun hc => h (hb.mp hc)), if_neg h]; exact ih _ (by omega)

end Verif.Disasm
