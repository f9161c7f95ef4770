import Verif.Binary.Str
import Verif.Binary.Loop
set_option linter.unusedSimpArgs false
set_option linter.unusedVariables false

/-! Two runs of the parser compared: on a truncated buffer, and on the byte-swapped
buffer. -/
namespace Verif.Binary
open Verif.StringLit (Byte Word)

/-! ## Truncation -/

theorem effect_take {G : Grammar} {unk swap : Bool} {ws : List Word} {off op n : Nat} {t : OT}
    {w : Word} {m : MState} {i : IState} (hoff : off < m.idx) (hn : m.idx < n) (hl : n ≤ ws.length) :
    (∀ e, effect G unk swap ws off op t w m i = .ok e → m.idx + e.nwords ≤ n →
      effect G unk swap (ws.take n) off op t w m i = .ok e) ∧
    (effect G unk swap ws off op t w m i = .retry →
      effect G unk swap (ws.take n) off op t w m i = .retry) := by
  have hget : (ws.take n)[off + 1]? = ws[off + 1]? := by
    rw [List.getElem?_take_of_lt (by omega)]
  have hlen : (ws.take n).length = n := by simp; omega
  unfold effect
  simp only [hget]
  cases hk : t.kind <;> simp only
  case str =>
    refine ⟨?_, ?_⟩
    · intro e h hle
      split at h
      · simp at h
      · rename_i h1
        split at h
        · simp at h
        · rename_i h2
          have hnw : e.nwords = (StringLit.makeString (ws.drop m.idx)).str.length / 4 + 1 := by
            repeat' split at h
            all_goals first
              | (simp only [reduceCtorEq] at h; done)
              | (simp only [PR.ok.injEq] at h; subst h; rfl)
          have hd : (ws.take n).drop m.idx = (ws.drop m.idx).take (n - m.idx) := by
            rw [List.drop_take]
          have hst := str_take (ws.drop m.idx) (n - m.idx)
            (by rw [List.length_drop]; exact h1) (by omega)
          rw [← hd] at hst
          rw [if_neg (by have := hst.2; rwa [List.length_drop] at this), hst.1, if_neg h2]
          exact h
    · intro h
      repeat' split at h
      all_goals simp at h
  all_goals exact ⟨fun e h _ => h, fun h => h⟩

theorem parseOperand_take {G : Grammar} {unk swap : Bool} {ws : List Word} {off op n : Nat} {t : OT}
    {m : MState} {i : IState} (hoff : off < m.idx) (hn : m.idx < n) (hl : n ≤ ws.length) :
    (∀ m' i', parseOperand G unk swap ws off op t m i = .ok (m', i') → m'.idx ≤ n →
      parseOperand G unk swap (ws.take n) off op t m i = .ok (m', i')) ∧
    (parseOperand G unk swap ws off op t m i = .retry →
      parseOperand G unk swap (ws.take n) off op t m i = .retry) := by
  have hlen : (ws.take n).length = n := by simp; omega
  have hget : (ws.take n)[m.idx]? = ws[m.idx]? := by
    rw [List.getElem?_take_of_lt (by omega)]
  obtain ⟨e1, e2⟩ := effect_take (G := G) (unk := unk) (swap := swap) (op := op) (t := t)
    (w := fixW swap (ws[m.idx]'(by omega))) (i := i) hoff hn hl
  have hraw : ws[m.idx]? = some (ws[m.idx]'(by omega)) := List.getElem?_eq_getElem _
  refine ⟨?_, ?_⟩
  · intro m' i' h hle
    have hinv := parseOperand_inv h
    obtain ⟨raw, e, h1, h2, h3, h4, h5⟩ := hinv
    rw [hraw] at h1
    simp only [Option.some.injEq] at h1
    rw [← h1] at h2
    have hle' : m.idx + e.nwords ≤ n := by rw [h4] at hle; simpa using hle
    have h2' := e1 e h2 hle'
    unfold parseOperand at h ⊢
    rw [if_neg (by omega), hraw] at h
    rw [if_neg (by omega), hget, hraw]
    simp only [h2] at h
    simp only [h2']
    split at h
    · simp at h
    · rename_i hc
      rw [if_neg hc]
      rw [if_neg (by omega)] at h
      rw [if_neg (by omega)]
      have hs1 : slice ws m.idx (m.idx + e.nwords) = some ((ws.drop m.idx).take e.nwords) := by
        unfold slice; rw [if_pos (by omega), Nat.add_sub_cancel_left]
      have hs2 : slice (ws.take n) m.idx (m.idx + e.nwords) = some ((ws.drop m.idx).take e.nwords) := by
        unfold slice; rw [if_pos (by omega), Nat.add_sub_cancel_left, List.drop_take, List.take_take,
          Nat.min_eq_left (by omega)]
      rw [hs1] at h
      rw [hs2]
      exact h
  · intro h
    unfold parseOperand at h ⊢
    rw [if_neg (by omega), hraw] at h
    rw [if_neg (by omega), hget, hraw]
    simp only at h ⊢
    split at h
    · simp at h
    · rename_i h1; simp only [e2 h1]
    · simp at h
    · split at h
      · simp at h
      · split at h
        · simp at h
        · split at h <;> simp at h

theorem operandLoop_idx {G : Grammar} {unk swap : Bool} {ws : List Word} {off op stop : Nat}
    {m : MState} {i : IState} :
    match operandLoop G unk swap ws off op stop m i with
    | .ok m' i' => m.idx ≤ m'.idx
    | .retry m' i' => m'.idx < stop ∧ m.idx ≤ m'.idx
    | _ => True := by
  fun_induction operandLoop G unk swap ws off op stop m i with
  | case1 => trivial
  | case2 => trivial
  | case3 m i h t p ht h2 => exact ⟨h, Nat.le_refl _⟩
  | case4 => trivial
  | case5 m i h t p ht m' i' hp ih =>
    have := parseOperand_progress hp
    split at ih <;> first | trivial | (simp only; omega) | omega
  | case6 => exact Nat.le_refl _

theorem operandLoop_take {G : Grammar} {unk swap : Bool} {ws : List Word} {off op stop n : Nat}
    {m : MState} {i : IState} (hoff : off < m.idx) (hl : n ≤ ws.length) (hs : stop ≤ n) :
    (∀ m' i', operandLoop G unk swap ws off op stop m i = .ok m' i' → m'.idx ≤ n →
      operandLoop G unk swap (ws.take n) off op stop m i = .ok m' i') ∧
    (∀ m' i', operandLoop G unk swap ws off op stop m i = .retry m' i' →
      operandLoop G unk swap (ws.take n) off op stop m i = .retry m' i') := by
  fun_induction operandLoop G unk swap ws off op stop m i with
  | case1 => simp
  | case2 => simp
  | case3 m i h t p ht h2 =>
    refine ⟨by simp, ?_⟩
    intro m' i' he
    rw [operandLoop, if_pos h]
    split
    · rename_i h3; rw [ht] at h3; simp at h3
    · rename_i h3
      rw [ht] at h3
      simp only [Option.some.injEq, Prod.mk.injEq] at h3
      obtain ⟨rfl, rfl⟩ := h3
      have := (parseOperand_take (G := G) (unk := unk) (swap := swap) (op := op) (t := t)
        (i := { i with expected := p }) hoff (by omega) hl).2 h2
      split
      · rename_i h4; rw [this] at h4; simp at h4
      · exact he
      · rename_i h4; rw [this] at h4; simp at h4
      · rename_i h4; rw [this] at h4; simp at h4
  | case4 => simp
  | case5 m i h t p ht m1 i1 hp ih =>
    have hprog := parseOperand_progress hp
    have ih := ih (by omega)
    have key : m1.idx ≤ n → operandLoop G unk swap (List.take n ws) off op stop m i =
        operandLoop G unk swap (List.take n ws) off op stop m1 i1 := by
      intro hle
      rw [operandLoop, if_pos h]
      split
      · rename_i h3; rw [ht] at h3; simp at h3
      · rename_i h3
        rw [ht] at h3
        simp only [Option.some.injEq, Prod.mk.injEq] at h3
        obtain ⟨rfl, rfl⟩ := h3
        have := (parseOperand_take (G := G) (unk := unk) (swap := swap) (op := op) (t := t)
          (i := { i with expected := p }) hoff (by omega) hl).1 m1 i1 hp hle
        split
        · rename_i h4; rw [this] at h4; simp at h4
        · rename_i h4; rw [this] at h4; simp at h4
        · rename_i h4; rw [this] at h4; simp at h4
        · rename_i h4
          rw [this] at h4
          simp only [PR.ok.injEq, Prod.mk.injEq] at h4
          rw [h4.1, h4.2]
    have hidx := operandLoop_idx (G := G) (unk := unk) (swap := swap) (ws := ws) (off := off) (op := op)
      (stop := stop) (m := m1) (i := i1)
    refine ⟨?_, ?_⟩
    · intro m' i' he hle
      rw [he] at hidx
      simp only at hidx
      rw [key (by omega)]
      exact ih.1 m' i' he hle
    · intro m' i' he
      rw [he] at hidx
      simp only at hidx
      rw [key (by omega)]
      exact ih.2 m' i' he
  | case6 m i h =>
    refine ⟨?_, by simp⟩
    intro m' i' he _
    rw [operandLoop, if_neg h]
    exact he

theorem emitAsUnknown_take {swap : Bool} {ws : List Word} {off wc op n : Nat} {a b : Word} {e : Nat}
    {m m' : MState} {x : Inst} (hl : n ≤ ws.length) (hn : off + wc ≤ n)
    (h : emitAsUnknown swap ws off wc op a b e m = .inst m' x) :
    emitAsUnknown swap (ws.take n) off wc op a b e m = .inst m' x := by
  have hlen : (ws.take n).length = n := by simp; omega
  unfold emitAsUnknown slice at h ⊢
  rw [if_neg (by omega), if_pos (by omega)] at h
  rw [if_neg (by omega), if_pos (by omega)]
  rw [List.drop_take, List.take_take, Nat.min_eq_left (by omega)]
  exact h

theorem finishInst_take {G : Grammar} {swap : Bool} {ws : List Word} {off wc op n : Nat} {m m' : MState}
    {i : IState} {x : Inst} (hl : n ≤ ws.length) (hn : off + wc ≤ n)
    (hr : recordNumberType G swap (ws.take n) off op wc i.resultId m
      = recordNumberType G swap ws off op wc i.resultId m)
    (h : finishInst G swap ws off wc op m i = .inst m' x) :
    finishInst G swap (ws.take n) off wc op m i = .inst m' x := by
  have hlen : (ws.take n).length = n := by simp; omega
  have hs1 : slice ws off (off + wc) = some ((ws.drop off).take wc) := by
    unfold slice; rw [if_pos (by omega), Nat.add_sub_cancel_left]
  have hs2 : slice (ws.take n) off (off + wc) = some ((ws.drop off).take wc) := by
    unfold slice; rw [if_pos (by omega), Nat.add_sub_cancel_left, List.drop_take, List.take_take,
      Nat.min_eq_left (by omega)]
  unfold finishInst at h ⊢
  rw [hs1] at h
  rw [hs2, hr]
  exact h

end Verif.Binary
