import Verif.Binary.Model
set_option linter.unusedSimpArgs false
set_option linter.unusedVariables false

namespace Verif.Binary
open Verif.StringLit (Byte Word)

/-! ## bswap -/

theorem bswap_bswap (w : Word) : bswap (bswap w) = w := by
  unfold bswap
  ext i hi
  simp only [BitVec.getElem_or, BitVec.getElem_and, BitVec.getElem_shiftLeft,
    BitVec.getElem_ushiftRight, BitVec.getLsbD_or, BitVec.getLsbD_and, BitVec.getLsbD_shiftLeft,
    BitVec.getLsbD_ushiftRight]
  have : i = 0 ∨ i = 1 ∨ i = 2 ∨ i = 3 ∨ i = 4 ∨ i = 5 ∨ i = 6 ∨ i = 7 ∨ i = 8 ∨ i = 9 ∨ i = 10 ∨
    i = 11 ∨ i = 12 ∨ i = 13 ∨ i = 14 ∨ i = 15 ∨ i = 16 ∨ i = 17 ∨ i = 18 ∨ i = 19 ∨ i = 20 ∨
    i = 21 ∨ i = 22 ∨ i = 23 ∨ i = 24 ∨ i = 25 ∨ i = 26 ∨ i = 27 ∨ i = 28 ∨ i = 29 ∨ i = 30 ∨
    i = 31 := by omega
  rcases this with h | h | h | h | h | h | h | h | h | h | h | h | h | h | h | h | h | h | h | h |
    h | h | h | h | h | h | h | h | h | h | h | h <;> subst h <;> simp [BitVec.getElem_eq_testBit_toNat, Nat.testBit]

theorem fixW_not_bswap (swap : Bool) (w : Word) : fixW (!swap) (bswap w) = fixW swap w := by
  cases swap <;> simp [fixW, bswap_bswap]

theorem wordCount_le (w : Word) : wordCount w ≤ 65535 := by
  unfold wordCount
  rw [BitVec.toNat_ushiftRight, Nat.shiftRight_eq_div_pow]
  have := (w &&& 0xffff0000#32).isLt
  omega

theorem opcodeOf_le (w : Word) : opcodeOf w ≤ 65535 := by
  unfold opcodeOf
  rw [BitVec.toNat_and]
  have := Nat.and_le_right (n := w.toNat) (m := (0x0000ffff#32).toNat)
  simpa using this

/-! ## maskLoop -/

theorem maskLoop_no_fault (G : Grammar) (t : OT) (unk : Bool) : ∀ (k : Nat) (rem : Word) (p : Pattern),
    k ≤ 32 → (∀ j, k ≤ j → rem.getLsbD j = false) → maskLoop G t unk k rem p ≠ .fault := by
  intro k
  induction k with
  | zero =>
    intro rem p _ h
    have : rem = 0 := by
      apply BitVec.eq_of_getLsbD_eq
      intro i hi; rw [h i (Nat.zero_le _)]; simp
    simp [maskLoop, this]
  | succ k ih =>
    intro rem p hk h
    simp only [maskLoop]
    split
    · simp
    · split
      · split
        · split <;> simp
        · apply ih _ _ (by omega)
          intro j hj
          rename_i hb _ _ _
          rw [BitVec.getLsbD_xor, BitVec.getLsbD_shiftLeft]
          by_cases hjk : j = k
          · subst hjk
            have : rem.getLsbD j = true := by
              cases hr : rem.getLsbD j
              · exfalso; apply hb
                apply BitVec.eq_of_getLsbD_eq
                intro i hi
                rw [BitVec.getLsbD_and, BitVec.getLsbD_shiftLeft]
                by_cases hij : i = j
                · subst hij; simp [hr]
                · by_cases h2 : i < j
                  · simp [h2]
                  · have : (1#32).getLsbD (i - j) = false := by
                      simp; omega
                    simp [this]
              · rfl
            have h32 : j < 32 := by omega
            simp [this, h32]
          · have : j - k ≠ 0 := by omega
            rw [h j (by omega)]
            simp; omega
      · apply ih _ _ (by omega)
        intro j hj
        by_cases hjk : j = k
        · subst hjk
          rename_i hb
          simp only [ne_eq, Decidable.not_not] at hb
          have := congrArg (fun v => v.getLsbD j) hb
          simp only [BitVec.getLsbD_and, BitVec.getLsbD_shiftLeft] at this
          have h32 : j < 32 := by omega
          simpa [h32] using this
        · exact h j (by omega)

/-- The pattern after a mask operand is the old one with more types pushed. -/
theorem maskLoop_ok (G : Grammar) (t : OT) (unk : Bool) : ∀ (k : Nat) (rem : Word) (p q : Pattern),
    maskLoop G t unk k rem p = .ok q →
    ∃ l : List OT, q = l ++ p ∧ ∀ x ∈ l, x ≠ .NONE ∧ ∃ v ops, G.operand t v = some ops ∧ x ∈ ops := by
  intro k
  induction k with
  | zero =>
    intro rem p q h
    simp only [maskLoop] at h
    split at h
    · simp only [PR.ok.injEq] at h; exact ⟨[], by simp [h], by simp⟩
    · simp at h
  | succ k ih =>
    intro rem p q h
    simp only [maskLoop] at h
    split at h
    · simp only [PR.ok.injEq] at h; exact ⟨[], by simp [h], by simp⟩
    · split at h
      · split at h
        · split at h <;> simp at h
        · rename_i ops ho
          obtain ⟨l, rfl, hl⟩ := ih _ _ _ h
          refine ⟨l ++ ops.filter (fun t => t != .NONE), by simp [pushTypes], ?_⟩
          intro x hx
          rcases List.mem_append.1 hx with hx | hx
          · exact hl x hx
          · rw [List.mem_filter] at hx
            exact ⟨by simpa using hx.2, _, _, ho, hx.1⟩
      · exact ih _ _ _ h

/-! ## Recorded types are concrete -/

theorem recorded_concrete (t : OT) (h : t.kind ≠ .unhandled) : t.recorded.isConcrete = true := by
  revert h
  cases t <;> decide

/-! ## What an operand does -/

/-- Everything later proofs need from a successful `switch`. -/
structure EffOk (G : Grammar) (unk swap : Bool) (ws : List Word) (off op : Nat) (t : OT) (word : Word)
    (m : MState) (i : IState) (e : Eff) : Prop where
  idx : e.m.idx = m.idx
  num : e.m.numType = m.numType
  nw : e.nwords ≤ 65535
  nwId : t.recorded.isId = true → e.nwords = 1 ∧ word ≠ 0
  nwPlain : t.kind ≠ .typedLit → t.kind ≠ .str → e.nwords = 1
  typeId : if t = .TYPE_ID then e.i.typeId = word else e.i.typeId = i.typeId
  result : if t = .RESULT_ID then
      e.i.resultId = word ∧ m.idType word = none ∧
        e.m.idType = fun x => if x = word then some (if G.generatesType op then word else i.typeId)
          else m.idType x
    else e.i.resultId = i.resultId ∧ e.m.idType = m.idType

theorem kind_typeId {t : OT} : t.kind = .typeId ↔ t = .TYPE_ID := by cases t <;> decide
theorem kind_resultId {t : OT} : t.kind = .resultId ↔ t = .RESULT_ID := by cases t <;> decide
theorem recorded_isId {t : OT} : t.recorded.isId = true ↔
    t.kind = .typeId ∨ t.kind = .resultId ∨ t.kind = .id ∨ t.kind = .scopeOrSem := by
  cases t <;> decide

theorem setNumericInfo_ok {typeId : Word} {m : MState} {i : IState} {e : Eff}
    (h : setNumericInfo typeId m i = .ok e) : e.i = i ∧ e.m = m ∧ e.nwords ≤ 65535 ∧ typeId ≠ 0 := by
  unfold setNumericInfo at h
  split at h
  · simp at h
  · split at h
    · simp at h
    · split at h
      · simp at h
      · simp only [PR.ok.injEq] at h; subst h
        refine ⟨rfl, rfl, ?_, by assumption⟩
        have := Nat.mod_lt ((‹NumType›.width + 31#32).toNat / 32) (show 0 < 65536 by omega)
        simp only; omega

theorem effect_ok {G : Grammar} {unk swap : Bool} {ws : List Word} {off op : Nat}
    {t : OT} {word : Word} {m : MState} {i : IState} {e : Eff}
    (h : effect G unk swap ws off op t word m i = .ok e) :
    EffOk G unk swap ws off op t word m i e := by
  have hT := @kind_typeId t
  have hR := @kind_resultId t
  have hI := @recorded_isId t
  unfold effect at h
  simp only at h
  split at h <;> rename_i hk <;> rw [hk] at hT hR hI <;>
    simp only [reduceCtorEq, false_iff, true_iff, or_self, or_false, false_or, iff_false, iff_true,
      or_true] at hT hR hI
  case h_9 =>
    -- typed literals
    have key : e.i = i ∧ e.m = m ∧ e.nwords ≤ 65535 := by
      repeat' split at h
      all_goals first
        | (simp only [reduceCtorEq] at h; done)
        | (simp only [PR.ok.injEq] at h; subst h; rename_i h1 _; exact (setNumericInfo_ok h1).imp_right (fun q => q.imp_right (fun q => q.1)))
        | exact (setNumericInfo_ok h).imp_right (fun q => q.imp_right (fun q => q.1))
    obtain ⟨a, b, c⟩ := key
    refine ⟨by rw [b], by rw [b], c, by simp [hI], by simp [hk], ?_, ?_⟩
    · simp [hT, a]
    · simp [hR, a, b]
  all_goals
    (repeat' split at h
     all_goals first
      | (simp only [reduceCtorEq] at h; done)
      | (simp only [PR.ok.injEq] at h; subst h
         constructor <;> simp_all
         done)
      | skip)

theorem effect_retry {G : Grammar} {unk swap : Bool} {ws : List Word} {off op : Nat}
    {t : OT} {word : Word} {m : MState} {i : IState}
    (h : effect G unk swap ws off op t word m i = .retry) : unk = true := by
  have hm : ∀ k rem p, maskLoop G t unk k rem p = .retry → unk = true := by
    intro k
    induction k with
    | zero => intro rem p h; simp only [maskLoop] at h; split at h <;> simp at h
    | succ k ih =>
      intro rem p h
      simp only [maskLoop] at h
      split at h
      · simp at h
      · split at h
        · split at h
          · split at h
            · assumption
            · simp at h
          · exact ih _ _ h
        · exact ih _ _ h
  have hn : ∀ ty, setNumericInfo ty m i ≠ .retry := by
    intro ty; unfold setNumericInfo; repeat' split
    all_goals simp
  unfold effect at h
  simp only at h
  split at h
  all_goals
    (repeat' split at h
     all_goals first
      | (simp only [reduceCtorEq] at h; done)
      | assumption
      | (exact absurd h (hn _))
      | (rename_i h1; exact hm _ _ _ h1))

end Verif.Binary
