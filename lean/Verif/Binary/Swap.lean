import Verif.Binary.Trace
set_option linter.unusedSimpArgs false
set_option linter.unusedVariables false

/-! The parser on a module and on its byte-swapped copy. -/
namespace Verif.Binary
open Verif.StringLit (Byte Word)
open Spec

def setConv (c : List Word) (i : IState) : IState := { i with conv := c }

def PR.setConv (c : List Word) : PR Eff → PR Eff
  | .ok e => .ok { e with i := Binary.setConv c e.i }
  | .err k => .err k
  | .retry => .retry
  | .fault => .fault

theorem setNumericInfo_setConv (ty : Word) (m : MState) (i : IState) (c : List Word) :
    setNumericInfo ty m (setConv c i) = (setNumericInfo ty m i).setConv c := by
  unfold setNumericInfo
  repeat' split
  all_goals rfl

theorem fixW_map_get (swap : Bool) (ws : List Word) (k : Nat) :
    ((ws.map bswap)[k]?).map (fixW (!swap)) = (ws[k]?).map (fixW swap) := by
  rw [List.getElem?_map, Option.map_map]
  congr 1
  funext w
  exact fixW_not_bswap swap w

theorem effect_swap {G : Grammar} {unk swap : Bool} {ws : List Word} {off op : Nat} {t : OT} {w : Word}
    {m : MState} {i : IState} {c : List Word} (hop : op ≠ opExtInstImport) :
    effect G unk (!swap) (ws.map bswap) off op t w m (setConv c i) =
      (effect G unk swap ws off op t w m i).setConv c := by
  unfold effect
  cases hk : t.kind <;> simp only
  case typedLit =>
    have hg := fixW_map_get swap ws (off + 1)
    by_cases h251 : op = opSwitch
    · simp only [h251, if_true]
      cases hr : ws[off + 1]? with
      | none =>
        rw [List.getElem?_map, hr]; rfl
      | some raw =>
        rw [List.getElem?_map, hr]
        simp only [Option.map_some, fixW_not_bswap]
        split
        · rfl
        · split
          · rfl
          · split
            · rfl
            · rw [setNumericInfo_setConv]
              cases setNumericInfo _ m i <;> simp only [PR.setConv]
              split <;> rfl
    · simp only [h251, if_false]
      split
      · rfl
      · exact setNumericInfo_setConv _ m i c
  case str =>
    have hd : (ws.map bswap).drop m.idx = (ws.drop m.idx).map bswap := by rw [List.map_drop]
    have hf := str_full_bswap (ws.drop m.idx)
    have hw := str_words_bswap (ws.drop m.idx)
    rw [List.length_drop] at hf hw
    rw [hd, List.length_map]
    by_cases h1 : (StringLit.makeString (ws.drop m.idx)).str.length = (ws.length - m.idx) * 4
    · rw [if_pos h1, if_pos (hf.2 h1)]; rfl
    · rw [if_neg h1, if_neg (fun q => h1 (hf.1 q)), hw h1]
      split
      · rfl
      · rfl
  all_goals
    (repeat' split
     all_goals first
       | rfl
       | (simp_all [setConv, PR.setConv]; done))

def PR.setConv2 (c : List Word) : PR (MState × IState) → PR (MState × IState)
  | .ok (m, i) => .ok (m, Binary.setConv c i)
  | .err k => .err k
  | .retry => .retry
  | .fault => .fault

def LR.setConv (c : List Word) : LR → LR
  | .ok m i => .ok m (Binary.setConv c i)
  | .err k => .err k
  | .retry m i => .retry m (Binary.setConv c i)
  | .fault => .fault

theorem parseOperand_swap {G : Grammar} {unk swap : Bool} {ws : List Word} {off op : Nat} {t : OT}
    {m : MState} {i : IState} {c : List Word} (hop : op ≠ opExtInstImport) :
    ∃ c', parseOperand G unk (!swap) (ws.map bswap) off op t m (setConv c i) =
      (parseOperand G unk swap ws off op t m i).setConv2 c' := by
  unfold parseOperand
  simp only [List.length_map]
  by_cases h1 : m.idx ≥ ws.length
  · rw [if_pos h1, if_pos h1]; exact ⟨[], rfl⟩
  · rw [if_neg h1, if_neg h1]
    rw [List.getElem?_map]
    cases hr : ws[m.idx]? with
    | none => exact ⟨[], rfl⟩
    | some raw =>
      simp only [Option.map_some, fixW_not_bswap, effect_swap hop]
      cases he : effect G unk swap ws off op t (fixW swap raw) m i with
      | err k => exact ⟨[], rfl⟩
      | retry => exact ⟨[], rfl⟩
      | fault => exact ⟨[], rfl⟩
      | ok e =>
        simp only [PR.setConv]
        split
        · exact ⟨[], rfl⟩
        · split
          · exact ⟨[], rfl⟩
          · unfold slice
            simp only [List.length_map]
            rw [if_pos (by omega), if_pos (by omega)]
            simp only [PR.setConv2, setConv]
            exact ⟨_, rfl⟩

theorem operandLoop_swap {G : Grammar} {unk swap : Bool} {ws : List Word} {off op stop : Nat}
    {m : MState} {i : IState} {c : List Word} (hop : op ≠ opExtInstImport) :
    ∃ c', operandLoop G unk (!swap) (ws.map bswap) off op stop m (setConv c i) =
      (operandLoop G unk swap ws off op stop m i).setConv c' := by
  have hp' : ∀ {t : OT} {p : Pattern} {m : MState} {i : IState} {c : List Word},
      ∃ c', parseOperand G unk (!swap) (ws.map bswap) off op t m { setConv c i with expected := p } =
      (parseOperand G unk swap ws off op t m { i with expected := p }).setConv2 c' :=
    fun {t p m i c} => parseOperand_swap (c := c) (i := { i with expected := p }) hop
  fun_induction operandLoop G unk swap ws off op stop m i generalizing c with
  | case1 m i h ht =>
    refine ⟨[], ?_⟩
    rw [operandLoop, if_pos h]
    split
    · rfl
    · rename_i h3; simp only [setConv] at h3; rw [ht] at h3; simp at h3
  | case2 m i h t p ht k hk =>
    refine ⟨[], ?_⟩
    obtain ⟨c', hc⟩ := hp' (t := t) (p := p) (m := m) (i := i) (c := c)
    rw [hk] at hc
    rw [operandLoop, if_pos h]
    split
    · rename_i h3; simp only [setConv] at h3; rw [ht] at h3; simp at h3
    · rename_i h3
      simp only [setConv] at h3
      rw [ht] at h3
      simp only [Option.some.injEq, Prod.mk.injEq] at h3
      obtain ⟨rfl, rfl⟩ := h3
      split <;> rename_i h4 <;> rw [hc] at h4 <;> simp only [PR.setConv2, reduceCtorEq, PR.err.injEq] at h4
      subst h4; rfl
  | case3 m i h t p ht hk =>
    obtain ⟨c', hc⟩ := hp' (t := t) (p := p) (m := m) (i := i) (c := c)
    refine ⟨c, ?_⟩
    rw [hk] at hc
    rw [operandLoop, if_pos h]
    split
    · rename_i h3; simp only [setConv] at h3; rw [ht] at h3; simp at h3
    · rename_i h3
      simp only [setConv] at h3
      rw [ht] at h3
      simp only [Option.some.injEq, Prod.mk.injEq] at h3
      obtain ⟨rfl, rfl⟩ := h3
      split <;> rename_i h4 <;> rw [hc] at h4 <;> simp only [PR.setConv2, reduceCtorEq, PR.err.injEq] at h4
      rfl
  | case4 m i h t p ht hk =>
    obtain ⟨c', hc⟩ := hp' (t := t) (p := p) (m := m) (i := i) (c := c)
    refine ⟨[], ?_⟩
    rw [hk] at hc
    rw [operandLoop, if_pos h]
    split
    · rename_i h3; simp only [setConv] at h3; rw [ht] at h3; simp at h3
    · rename_i h3
      simp only [setConv] at h3
      rw [ht] at h3
      simp only [Option.some.injEq, Prod.mk.injEq] at h3
      obtain ⟨rfl, rfl⟩ := h3
      split <;> rename_i h4 <;> rw [hc] at h4 <;> simp only [PR.setConv2, reduceCtorEq, PR.err.injEq] at h4
      rfl
  | case5 m i h t p ht m1 i1 hk ih =>
    obtain ⟨c', hc⟩ := hp' (t := t) (p := p) (m := m) (i := i) (c := c)
    obtain ⟨c2, ih⟩ := ih (c := c')
    refine ⟨c2, ?_⟩
    rw [hk] at hc
    rw [operandLoop, if_pos h]
    split
    · rename_i h3; simp only [setConv] at h3; rw [ht] at h3; simp at h3
    · rename_i h3
      simp only [setConv] at h3
      rw [ht] at h3
      simp only [Option.some.injEq, Prod.mk.injEq] at h3
      obtain ⟨rfl, rfl⟩ := h3
      split <;> rename_i h4 <;> rw [hc] at h4 <;>
        simp only [PR.setConv2, reduceCtorEq, PR.err.injEq, PR.ok.injEq, Prod.mk.injEq] at h4
      rw [← h4.1, ← h4.2]
      exact ih
  | case6 m i h =>
    refine ⟨c, ?_⟩
    rw [operandLoop, if_neg h]
    rfl

theorem recordNumberType_swap {G : Grammar} {swap : Bool} {ws : List Word} {off op n : Nat} {r : Word}
    {m : MState} : recordNumberType G (!swap) (ws.map bswap) off op n r m =
      recordNumberType G swap ws off op n r m := by
  unfold recordNumberType
  rw [List.getElem?_map, List.getElem?_map]
  cases ws[off + 3]? <;> cases ws[off + 2]? <;> simp [fixW_not_bswap]

theorem map_slice_swap (swap : Bool) (ws : List Word) (a n : Nat) :
    (((ws.map bswap).drop a).take n).map (fixW (!swap)) = ((ws.drop a).take n).map (fixW swap) := by
  rw [← List.map_drop, ← List.map_take, List.map_map]
  congr 1
  funext w
  exact fixW_not_bswap swap w

theorem emitAsUnknown_eq {swap : Bool} {ws : List Word} {off wc op : Nat} {a b : Word} {e : Nat} {m : MState} :
    emitAsUnknown swap ws off wc op a b e m =
      if off + wc > ws.length then .err cInvalidBinary
      else .inst { m with idx := off + wc }
        ⟨((ws.drop off).take wc).map (fixW swap), op, e, a, b, [], 0⟩ := by
  unfold emitAsUnknown slice
  split
  · rfl
  · rw [if_pos (by omega), Nat.add_sub_cancel_left]
    cases swap <;> simp [fixW_false, fixW_true]

theorem finishInst_eq {G : Grammar} {swap : Bool} {ws : List Word} {off wc op : Nat} {first : Word}
    {m0 m : MState} {i : IState} (hl : LoopInv swap ws off first m0 m i) :
    finishInst G swap ws off wc op m i =
      if moreExpected i.expected then .err cInvalidBinary
      else if off + wc ≠ m.idx then .err cInvalidBinary
      else match recordNumberType G swap ws off op wc i.resultId m with
      | none => .fault
      | some m => .inst m ⟨((ws.drop off).take wc).map (fixW swap), op, i.extType, i.typeId, i.resultId,
          i.operands, i.operands.length % 65536⟩ := by
  unfold finishInst
  split
  · rfl
  · split
    · rfl
    · rename_i h2
      have h2 : m.idx = off + wc := by omega
      have hle := hl.le
      have hconv := hl.conv
      rw [h2, Nat.add_sub_cancel_left] at hconv
      cases swap with
      | true =>
        simp only [if_true] at hconv
        have hlen : i.conv.length = wc := by
          rw [hconv]; simp only [List.length_map, List.length_take, List.length_drop]; omega
        simp only [hlen, ne_eq, not_true_eq_false, decide_false, Bool.and_false, Bool.false_eq_true, if_false,
          Bool.not_true, Bool.false_and]
        unfold slice
        rw [if_pos (by omega)]
        simp only [if_true]
        rw [hconv, fixW_true]
        cases recordNumberType G true ws off op wc i.resultId m <;> rfl
      | false =>
        simp only [Bool.false_eq_true, if_false] at hconv
        simp only [hconv, List.length_singleton, ne_eq, not_true_eq_false, decide_false, Bool.and_false,
          Bool.false_eq_true, if_false, Bool.false_and]
        unfold slice
        rw [if_pos (by omega), Nat.add_sub_cancel_left]
        simp [fixW_false]
        cases recordNumberType G false ws off op wc i.resultId m <;> rfl

/-- The host-order opcode at a position is not `OpExtInstImport`. -/
def notImport (swap : Bool) (ws : List Word) (k : Nat) : Prop :=
  ∀ w, ws[k]? = some w → opcodeOf (fixW swap w) ≠ opExtInstImport

theorem parseInstruction_swap {G : Grammar} {unk swap : Bool} {ws : List Word} {m : MState}
    (hni : notImport swap ws m.idx) :
    parseInstruction G unk (!swap) (ws.map bswap) m = parseInstruction G unk swap ws m := by
  unfold parseInstruction
  rw [List.getElem?_map]
  cases hr : ws[m.idx]? with
  | none => rfl
  | some raw =>
    simp only [Option.map_some, fixW_not_bswap]
    have hop := hni raw hr
    split
    · rfl
    · split
      · simp only [emitAsUnknown_eq, map_slice_swap, List.length_map]
      · rename_i ops hops
        have hr' : (ws.map bswap)[m.idx]? = some (bswap raw) := by rw [List.getElem?_map, hr]; rfl
        have hl1 := operandLoop_inv (G := G) (unk := unk) (op := opcodeOf (fixW swap raw))
          (stop := m.idx + wordCount (fixW swap raw))
          (startInv (swap := swap) (p := pushTypes ops []) hr)
          (by have := wordCount_le (fixW swap raw); omega)
        have hl2 := operandLoop_inv (G := G) (unk := unk) (op := opcodeOf (fixW swap raw))
          (stop := m.idx + wordCount (fixW swap raw))
          (startInv (swap := !swap) (p := pushTypes ops []) hr')
          (by have := wordCount_le (fixW swap raw); omega)
        rw [fixW_not_bswap] at hl2
        obtain ⟨c', hs⟩ := operandLoop_swap (G := G) (unk := unk) (swap := swap) (ws := ws) (off := m.idx)
          (stop := m.idx + wordCount (fixW swap raw)) (m := { m with idx := m.idx + 1 })
          (i := ⟨0, 0, 0, [fixW swap raw], [], pushTypes ops []⟩) (c := [fixW swap raw]) hop
        simp only [setConv] at hs
        rw [hs] at hl2 ⊢
        generalize operandLoop G unk swap ws m.idx (opcodeOf (fixW swap raw))
          (m.idx + wordCount (fixW swap raw)) { m with idx := m.idx + 1 }
          ⟨0, 0, 0, [fixW swap raw], [], pushTypes ops []⟩ = r at hl1 hl2 ⊢
        cases r with
        | err k => rfl
        | fault => rfl
        | retry m1 i1 =>
          simp only [LR.setConv, setConv, emitAsUnknown_eq, map_slice_swap, List.length_map]
        | ok m1 i1 =>
          simp only [LR.setConv] at hl1 hl2 ⊢
          rw [finishInst_eq hl1, finishInst_eq hl2]
          simp only [setConv, recordNumberType_swap, map_slice_swap]

/-- Positions of instruction starts from `k` on. -/
inductive At (swap : Bool) (ws : List Word) : Nat → Nat → Prop
  | here (k : Nat) : At swap ws k k
  | next {k j : Nat} {w : Word} (h : ws[k]? = some w) (hj : At swap ws (k + wordCount (fixW swap w)) j) :
      At swap ws k j

theorem InstOk.next {unk swap : Bool} {ws : List Word} {m m' : MState} {x : Inst}
    (h : InstOk unk swap ws m m' x) :
    ∃ w, ws[m.idx]? = some w ∧ m'.idx = m.idx + wordCount (fixW swap w) := by
  obtain ⟨w, h1, h2, h3⟩ := h.first
  have hlt := h.lt
  have hle := h.le
  rw [h.words] at h1
  have hr : ws[m.idx]? = some (ws[m.idx]'(by omega)) := List.getElem?_eq_getElem _
  rw [hostSlice_head hr (by omega)] at h1
  simp only [Option.mem_def, Option.some.injEq] at h1
  refine ⟨_, hr, ?_⟩
  rw [h1, h2]
  exact h.length

theorem trace_swap {G : Grammar} {unk swap : Bool} {ws : List Word} {m : MState}
    (hni : ∀ j, At swap ws m.idx j → notImport swap ws j) :
    trace G unk (!swap) (ws.map bswap) m = trace G unk swap ws m := by
  fun_induction trace G unk swap ws m with
  | case1 m hlt c hp =>
    rw [trace, if_pos (by simpa using hlt)]
    rw [← parseInstruction_swap (hni _ (.here _))] at hp
    split <;> rename_i h1 <;> rw [hp] at h1 <;> simp only [reduceCtorEq, IR.err.injEq] at h1
    rw [h1]
  | case2 m hlt hp =>
    rw [trace, if_pos (by simpa using hlt)]
    rw [← parseInstruction_swap (hni _ (.here _))] at hp
    split <;> rename_i h1 <;> rw [hp] at h1 <;> simp only [reduceCtorEq] at h1
  | case3 m hlt m' x hp ih =>
    have hnext := (parseInstruction_ok hp).next
    rw [← parseInstruction_swap (hni _ (.here _))] at hp
    rw [trace_cons hp (by simpa using hlt), ih]
    intro j hj
    obtain ⟨w, h1, h2⟩ := hnext
    rw [h2] at hj
    exact hni j (.next h1 hj)
  | case4 m h1 h2 => rw [trace, if_neg (by simpa using h1), if_pos (by simpa using h2)]
  | case5 m h1 h2 => rw [trace, if_neg (by simpa using h1), if_neg (by simpa using h2)]

end Verif.Binary
