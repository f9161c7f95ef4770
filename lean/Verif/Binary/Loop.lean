import Verif.Binary.Spec
import Verif.Binary.Lemmas
set_option linter.unusedSimpArgs false
set_option linter.unusedVariables false

namespace Verif.Binary
open Verif.StringLit (Byte Word)

theorem fixW_false : fixW false = id := by funext w; rfl
theorem fixW_true : fixW true = bswap := by funext w; rfl

theorem Spec.Tiles.append {a b : Nat} {os : List POperand} {o : POperand} (h : Spec.Tiles a os b)
    (ho : o.offset = b) : Spec.Tiles a (os ++ [o]) (b + o.nwords) := by
  induction os generalizing a with
  | nil => simp only [Spec.Tiles] at h; subst h; exact ⟨ho, rfl⟩
  | cons x xs ih => exact ⟨h.1, ih h.2⟩

theorem parseOperand_inv {G : Grammar} {unk swap : Bool} {ws : List Word} {off op : Nat} {t : OT}
    {m m' : MState} {i i' : IState} (h : parseOperand G unk swap ws off op t m i = .ok (m', i')) :
    ∃ raw e, ws[m.idx]? = some raw ∧ effect G unk swap ws off op t (fixW swap raw) m i = .ok e ∧
      m.idx + e.nwords ≤ ws.length ∧ m' = { e.m with idx := m.idx + e.nwords } ∧
      i' = { e.i with
        operands := i.operands ++
          [⟨(m.idx - off) % 65536, e.nwords, t.recorded, e.nkind, e.width, e.enc⟩]
        conv := if swap then i.conv ++ ((ws.drop m.idx).take e.nwords).map bswap else i.conv } := by
  unfold parseOperand at h
  split at h
  · simp at h
  · split at h
    · simp at h
    · rename_i raw hraw
      split at h
      · simp at h
      · simp at h
      · simp at h
      · rename_i e he
        split at h
        · simp at h
        · simp only at h
          split at h
          · simp at h
          · split at h
            · simp at h
            · rename_i hsl
              obtain ⟨h1, h2⟩ := slice_some hsl
              simp only [PR.ok.injEq, Prod.mk.injEq] at h
              obtain ⟨rfl, rfl⟩ := h
              refine ⟨raw, e, hraw, he, h1, rfl, ?_⟩
              rw [h2, Nat.add_sub_cancel_left]

theorem parseOperand_retry {G : Grammar} {unk swap : Bool} {ws : List Word} {off op : Nat} {t : OT}
    {m : MState} {i : IState} (h : parseOperand G unk swap ws off op t m i = .retry) : unk = true := by
  unfold parseOperand at h
  split at h
  · simp at h
  · split at h
    · simp at h
    · split at h
      · simp at h
      · rename_i h1; exact effect_retry h1
      · simp at h
      · split at h
        · simp at h
        · simp only at h
          split at h
          · simp at h
          · split at h <;> simp at h

/-- Invariant of the operand loop. `m0` is the state at the start of the instruction. -/
structure LoopInv (swap : Bool) (ws : List Word) (off : Nat) (first : Word) (m0 m : MState)
    (i : IState) : Prop where
  pos : off < m.idx
  le : m.idx ≤ ws.length
  tiles : Spec.Tiles 1 i.operands (m.idx - off)
  conv : i.conv = if swap then ((ws.drop off).take (m.idx - off)).map bswap else [first]
  num : m.numType = m0.numType
  mono : ∀ x, (m0.idType x).isSome → (m.idType x).isSome
  result : i.resultId ≠ 0 → m0.idType i.resultId = none ∧ (m.idType i.resultId).isSome
  resultOp : i.resultId ≠ 0 → ∃ o ∈ i.operands, o.type = .RESULT_ID ∧
    (ws[off + o.offset]?).map (fixW swap) = some i.resultId
  typeOp : i.typeId ≠ 0 → ∃ o ∈ i.operands, o.type = .TYPE_ID ∧
    (ws[off + o.offset]?).map (fixW swap) = some i.typeId
  ids : ∀ o ∈ i.operands, o.type.isId = true →
    o.nwords = 1 ∧ ∃ w, ws[off + o.offset]? = some w ∧ fixW swap w ≠ 0
  defs : ∀ o ∈ i.operands, o.type = .RESULT_ID →
    ∃ w, ws[off + o.offset]? = some w ∧ m0.idType (fixW swap w) = none ∧
      (m.idType (fixW swap w)).isSome
  hasRes : ∀ o ∈ i.operands, o.type = .RESULT_ID → i.resultId ≠ 0
  hasType : ∀ o ∈ i.operands, o.type = .TYPE_ID → i.typeId ≠ 0

theorem recorded_result {t : OT} : t.recorded = .RESULT_ID ↔ t = .RESULT_ID := by cases t <;> decide

theorem recorded_type {t : OT} : t.recorded = .TYPE_ID ↔ t = .TYPE_ID := by cases t <;> decide

theorem LoopInv.step {G : Grammar} {unk swap : Bool} {ws : List Word} {off op : Nat} {first : Word}
    {t : OT} {m0 m m' : MState} {i i' : IState} {p : Pattern} (hi : LoopInv swap ws off first m0 m i)
    (hlt : m.idx < off + 65536)
    (h : parseOperand G unk swap ws off op t m { i with expected := p } = .ok (m', i')) :
    LoopInv swap ws off first m0 m' i' := by
  obtain ⟨raw, e, hraw, he, hle, rfl, rfl⟩ := parseOperand_inv h
  have ho := effect_ok he
  have hpos := hi.pos
  have hoff : (m.idx - off) % 65536 = m.idx - off := Nat.mod_eq_of_lt (by omega)
  have hback : off + (m.idx - off) = m.idx := by omega
  have hmono : ∀ x, (m.idType x).isSome → (e.m.idType x).isSome := by
    intro x hx
    have hr := ho.result
    split at hr
    · rw [hr.2.2]; simp only; split
      · simp
      · exact hx
    · rw [hr.2]; exact hx
  constructor
  · simp only; omega
  · exact hle
  · simp only
    have := hi.tiles.append (o := ⟨(m.idx - off) % 65536, e.nwords, t.recorded, e.nkind, e.width, e.enc⟩)
      (by simp only; omega)
    simp only at this
    rwa [show m.idx + e.nwords - off = m.idx - off + e.nwords by omega]
  · simp only
    split
    · rename_i hs
      rw [hi.conv, if_pos hs, ← List.map_append]
      congr 1
      rw [show m.idx + e.nwords - off = (m.idx - off) + e.nwords by omega, List.take_add,
        List.drop_drop, hback]
    · rename_i hs
      rw [hi.conv, if_neg hs]
  · simp only; rw [ho.num, hi.num]
  · exact fun x hx => hmono x (hi.mono x hx)
  · simp only
    intro hne
    have hr := ho.result
    split at hr
    · obtain ⟨h1, h2, h3⟩ := hr
      rw [h1] at hne ⊢
      refine ⟨?_, by rw [h3]; simp⟩
      cases h4 : m0.idType (fixW swap raw) with
      | none => rfl
      | some v => have := hi.mono (fixW swap raw) (by simp [h4]); simp [h2] at this
    · rw [hr.1] at hne ⊢
      exact ⟨(hi.result hne).1, hmono _ (hi.result hne).2⟩
  · simp only
    intro hne
    have hr := ho.result
    split at hr
    · rename_i ht
      refine ⟨_, List.mem_append_right _ (List.mem_singleton.2 rfl), ?_⟩
      simp only [hoff, hback, hraw, Option.map_some, hr.1, ht, OT.recorded, and_self]
    · rw [hr.1] at hne ⊢
      obtain ⟨o, h1, h2⟩ := hi.resultOp hne
      exact ⟨o, List.mem_append_left _ h1, h2⟩
  · simp only
    intro hne
    have hr := ho.typeId
    split at hr
    · rename_i ht
      refine ⟨_, List.mem_append_right _ (List.mem_singleton.2 rfl), ?_⟩
      simp only [hoff, hback, hraw, Option.map_some, hr, ht, OT.recorded, and_self]
    · rw [hr] at hne ⊢
      obtain ⟨o, h1, h2⟩ := hi.typeOp hne
      exact ⟨o, List.mem_append_left _ h1, h2⟩
  · simp only
    intro o h1 h2
    rcases List.mem_append.1 h1 with h1 | h1
    · exact hi.ids o h1 h2
    · rw [List.mem_singleton] at h1
      subst h1
      have := ho.nwId h2
      exact ⟨this.1, raw, by simp only [hoff, hback, hraw], this.2⟩
  · simp only
    intro o h1 h2
    rcases List.mem_append.1 h1 with h1 | h1
    · obtain ⟨w, a, b, c⟩ := hi.defs o h1 h2
      exact ⟨w, a, b, hmono _ c⟩
    · rw [List.mem_singleton] at h1
      subst h1
      have ht : t = .RESULT_ID := recorded_result.1 h2
      have hr := ho.result
      rw [if_pos ht] at hr
      refine ⟨raw, by simp only [hoff, hback, hraw], ?_, by rw [hr.2.2]; simp⟩
      cases h4 : m0.idType (fixW swap raw) with
      | none => rfl
      | some v => have := hi.mono (fixW swap raw) (by simp [h4]); simp [hr.2.1] at this
  · simp only
    intro o h1 h2
    have hr := ho.result
    split at hr
    · rename_i ht
      rw [hr.1]; exact (ho.nwId (by rw [ht]; rfl)).2
    · rename_i ht
      rw [hr.1]
      rcases List.mem_append.1 h1 with h1 | h1
      · exact hi.hasRes o h1 h2
      · rw [List.mem_singleton] at h1
        subst h1
        exact absurd (recorded_result.1 h2) ht
  · simp only
    intro o h1 h2
    have hr := ho.typeId
    split at hr
    · rename_i ht
      rw [hr]; exact (ho.nwId (by rw [ht]; rfl)).2
    · rename_i ht
      rw [hr]
      rcases List.mem_append.1 h1 with h1 | h1
      · exact hi.hasType o h1 h2
      · rw [List.mem_singleton] at h1
        subst h1
        exact absurd (recorded_type.1 h2) ht

theorem operandLoop_inv {G : Grammar} {unk swap : Bool} {ws : List Word} {off op stop : Nat}
    {first : Word} {m0 m : MState} {i : IState} (hi : LoopInv swap ws off first m0 m i)
    (hstop : stop ≤ off + 65535) :
    match operandLoop G unk swap ws off op stop m i with
    | .ok m' i' => LoopInv swap ws off first m0 m' i'
    | .retry m' i' => LoopInv swap ws off first m0 m' i' ∧ unk = true
    | _ => True := by
  fun_induction operandLoop G unk swap ws off op stop m i with
  | case1 => trivial
  | case2 => trivial
  | case3 m i h t p ht h2 => exact ⟨hi, parseOperand_retry h2⟩
  | case4 => trivial
  | case5 m i h t p ht m' i' hp ih => exact ih (hi.step (by omega) hp)
  | case6 => exact hi

/-- What a successfully parsed instruction looks like. -/
structure InstOk (unk swap : Bool) (ws : List Word) (m m' : MState) (x : Inst) : Prop where
  lt : m.idx < m'.idx
  le : m'.idx ≤ ws.length
  words : x.words = ((ws.drop m.idx).take (m'.idx - m.idx)).map (fixW swap)
  first : ∃ w ∈ x.words.head?, wordCount w = x.words.length ∧ opcodeOf w = x.opcode
  tiles : (Spec.Tiles 1 x.operands x.words.length ∧ x.numOperands = x.operands.length % 65536) ∨
    (unk = true ∧ x.operands = [] ∧ x.numOperands = 0)
  mono : ∀ v, (m.idType v).isSome → (m'.idType v).isSome
  result : x.resultId ≠ 0 → m.idType x.resultId = none ∧ (m'.idType x.resultId).isSome
  resultOp : unk = false → x.resultId ≠ 0 → ∃ o ∈ x.operands, o.type = .RESULT_ID ∧
    x.words[o.offset]? = some x.resultId
  typeOp : unk = false → x.typeId ≠ 0 → ∃ o ∈ x.operands, o.type = .TYPE_ID ∧
    x.words[o.offset]? = some x.typeId
  ids : ∀ o ∈ x.operands, o.type.isId = true →
    o.nwords = 1 ∧ ∃ w, x.words[o.offset]? = some w ∧ w ≠ 0
  defs : ∀ o ∈ x.operands, o.type = .RESULT_ID →
    ∃ w, x.words[o.offset]? = some w ∧ m.idType w = none ∧ (m'.idType w).isSome
  hasRes : ∀ o ∈ x.operands, o.type = .RESULT_ID → x.resultId ≠ 0
  hasType : ∀ o ∈ x.operands, o.type = .TYPE_ID → x.typeId ≠ 0

theorem hostSlice_get {ws : List Word} {swap : Bool} {off n k : Nat} (hk : k < n) :
    (((ws.drop off).take n).map (fixW swap))[k]? = (ws[off + k]?).map (fixW swap) := by
  rw [List.getElem?_map, List.getElem?_take_of_lt hk, List.getElem?_drop]

theorem hostSlice_head {ws : List Word} {swap : Bool} {off n : Nat} {raw : Word}
    (h : ws[off]? = some raw) (hn : 0 < n) :
    (((ws.drop off).take n).map (fixW swap)).head? = some (fixW swap raw) := by
  rw [List.head?_eq_getElem?, hostSlice_get hn, Nat.add_zero, h]; rfl

theorem tiles_offset {a b : Nat} {os : List POperand} (h : Spec.Tiles a os b) :
    ∀ o ∈ os, a ≤ o.offset ∧ o.offset + o.nwords ≤ b := by
  induction os generalizing a with
  | nil => simp
  | cons x xs ih =>
    intro o ho
    have hle : ∀ (a : Nat) (l : List POperand), Spec.Tiles a l b → a ≤ b := by
      intro a l
      induction l generalizing a with
      | nil => intro h; simp only [Spec.Tiles] at h; omega
      | cons y ys ih2 => intro h; have := ih2 _ h.2; omega
    rcases List.mem_cons.1 ho with rfl | ho
    · have := hle _ _ h.2; have := h.1; omega
    · have := ih h.2 o ho; omega

theorem emitAsUnknown_inv {swap : Bool} {ws : List Word} {off wc op : Nat} {a b : Word} {e : Nat}
    {m m' : MState} {x : Inst} (h : emitAsUnknown swap ws off wc op a b e m = .inst m' x) :
    off + wc ≤ ws.length ∧ m' = { m with idx := off + wc } ∧
    x = ⟨((ws.drop off).take wc).map (fixW swap), op, e, a, b, [], 0⟩ := by
  unfold emitAsUnknown at h
  split at h
  · simp at h
  · split at h
    · simp at h
    · rename_i hsl
      obtain ⟨h1, h2⟩ := slice_some hsl
      simp only [IR.inst.injEq] at h
      obtain ⟨rfl, rfl⟩ := h
      refine ⟨h1, rfl, ?_⟩
      rw [h2, Nat.add_sub_cancel_left]
      cases swap
      · simp [fixW_false]
      · simp [fixW_true]

theorem startInv {swap : Bool} {ws : List Word} {m : MState} {raw : Word} {p : Pattern}
    (h : ws[m.idx]? = some raw) :
    LoopInv swap ws m.idx (fixW swap raw) m { m with idx := m.idx + 1 }
      ⟨0, 0, 0, [fixW swap raw], [], p⟩ := by
  have hlt : m.idx < ws.length := (List.getElem?_eq_some_iff.1 h).1
  constructor
  · simp
  · simp only; omega
  · simp [Spec.Tiles]
  · simp only [Nat.add_sub_cancel_left]
    split
    · rename_i hs
      have : (ws.drop m.idx).take 1 = [raw] := by
        obtain ⟨h1, h2⟩ := List.getElem?_eq_some_iff.1 h
        rw [List.drop_eq_getElem_cons h1, List.take_one, List.head?_cons]
        simp [h2]
      rw [this]; simp [fixW, hs]
    · rfl
  all_goals simp

theorem parseInstruction_ok {G : Grammar} {unk swap : Bool} {ws : List Word} {m m' : MState}
    {x : Inst} (h : parseInstruction G unk swap ws m = .inst m' x) : InstOk unk swap ws m m' x := by
  unfold parseInstruction at h
  split at h
  · simp at h
  · rename_i raw hraw
    simp only at h
    split at h
    · simp at h
    · rename_i hwc
      have hlen : ∀ n, m.idx + n ≤ ws.length →
          (((ws.drop m.idx).take n).map (fixW swap)).length = n := by
        intro n hn; simp; omega
      have hunk : ∀ {m1 : MState} {a b : Word} {e : Nat}, unk = true →
          (∀ v, (m.idType v).isSome → (m1.idType v).isSome) →
          (b ≠ 0 → m.idType b = none ∧ (m1.idType b).isSome) →
          emitAsUnknown swap ws m.idx (wordCount (fixW swap raw)) (opcodeOf (fixW swap raw)) a b e m1
            = .inst m' x → InstOk unk swap ws m m' x := by
        intro m1 a b e hu hmono hres h
        obtain ⟨h1, rfl, rfl⟩ := emitAsUnknown_inv h
        have hl := hlen _ h1
        refine ⟨by simp only; omega, h1, ?_, ?_, Or.inr ⟨hu, rfl, rfl⟩, hmono, hres, ?_, ?_, ?_, ?_, ?_, ?_⟩
        · simp only [Nat.add_sub_cancel_left]
        · refine ⟨fixW swap raw, ?_, hl.symm, rfl⟩
          exact hostSlice_head hraw (by omega)
        · intro h; simp [hu] at h
        · intro h; simp [hu] at h
        · simp
        · simp
        · simp
        · simp
      split at h
      · split at h
        · rename_i hu
          exact hunk hu (by simp) (by simp) h
        · simp at h
      · rename_i ops _
        have hl := operandLoop_inv (G := G) (unk := unk) (op := opcodeOf (fixW swap raw))
          (stop := m.idx + wordCount (fixW swap raw))
          (startInv (swap := swap) (p := pushTypes ops []) hraw)
          (by have := wordCount_le (fixW swap raw); omega)
        split at h
        · simp at h
        · simp at h
        · rename_i m1 i1 h1
          rw [h1] at hl
          obtain ⟨hl, hu⟩ := hl
          exact hunk hu hl.mono hl.result h
        · rename_i m1 i1 h1
          rw [h1] at hl
          simp only at hl
          obtain ⟨f1, f2, f3, f4, f5, rfl⟩ := finishInst_inst h
          have hr := recordNumberType_idx f5
          have hle : m'.idx = m.idx + wordCount (fixW swap raw) := by omega
          have hw : (if swap then i1.conv else (ws.drop m.idx).take (wordCount (fixW swap raw)))
              = ((ws.drop m.idx).take (wordCount (fixW swap raw))).map (fixW swap) := by
            cases hs : swap
            · simp [fixW_false]
            · simp only [if_true]
              rw [hl.conv, hs]
              simp only [if_true, f2, Nat.add_sub_cancel_left, fixW, hs]
              rfl
          have hlw := hlen _ f4
          have hget : ∀ o ∈ i1.operands, o.type.isId = true →
              (((ws.drop m.idx).take (wordCount (fixW swap raw))).map (fixW swap))[o.offset]?
                = (ws[m.idx + o.offset]?).map (fixW swap) := by
            intro o ho hid
            apply hostSlice_get
            have := (tiles_offset hl.tiles o ho).2
            have := (hl.ids o ho hid).1
            omega
          refine ⟨by omega, by omega, ?_, ?_, ?_, ?_, ?_, ?_, ?_, ?_, ?_, hl.hasRes, hl.hasType⟩
          · simp only; rw [hw, hle, Nat.add_sub_cancel_left]
          · simp only; rw [hw]
            exact ⟨fixW swap raw, hostSlice_head hraw (by omega), hlw.symm, rfl⟩
          · left
            simp only; rw [hw, hlw]
            refine ⟨?_, trivial⟩
            have := hl.tiles
            rwa [f2, Nat.add_sub_cancel_left] at this
          · rw [hr.2.1]; exact hl.mono
          · rw [hr.2.1]; exact hl.result
          · intro _ hne
            obtain ⟨o, h1, h2, h3⟩ := hl.resultOp hne
            refine ⟨o, h1, h2, ?_⟩
            simp only; rw [hw, hget o h1 (by rw [h2]; rfl), h3]
          · intro _ hne
            obtain ⟨o, h1, h2, h3⟩ := hl.typeOp hne
            refine ⟨o, h1, h2, ?_⟩
            simp only; rw [hw, hget o h1 (by rw [h2]; rfl), h3]
          · intro o h1 h2
            obtain ⟨h3, w, h4, h5⟩ := hl.ids o h1 h2
            refine ⟨h3, fixW swap w, ?_, h5⟩
            simp only; rw [hw, hget o h1 h2, h4]; rfl
          · intro o h1 h2
            obtain ⟨w, h4, h5, h6⟩ := hl.defs o h1 h2
            refine ⟨fixW swap w, ?_, h5, by rw [hr.2.1]; exact h6⟩
            simp only; rw [hw, hget o h1 (by rw [h2]; rfl), h4]; rfl

end Verif.Binary
