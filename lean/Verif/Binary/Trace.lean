import Verif.Binary.Rel
import Verif.Binary.Safe
set_option linter.unusedSimpArgs false
set_option linter.unusedVariables false

namespace Verif.Binary
open Verif.StringLit (Byte Word)
open Spec

/-- The instructions from a state on, and the final code. -/
def trace (G : Grammar) (unk swap : Bool) (ws : List Word) (m : MState) : Option (List Inst × Int) :=
  if m.idx < ws.length then
    match h : parseInstruction G unk swap ws m with
    | .err c => some ([], c)
    | .fault => none
    | .inst m' x => (trace G unk swap ws m').map fun r => (x :: r.1, r.2)
  else if m.idx ≠ ws.length then none
  else some ([], cSuccess)
termination_by ws.length - m.idx
decreasing_by have := parseInstruction_idx h; omega

theorem moduleLoop_feed {σ : Type} {G : Grammar} {unk swap : Bool} {cb : σ → Inst → σ × Int}
    {ws : List Word} {m : MState} {s : σ} {xs : List Inst} {c : Int}
    (h : trace G unk swap ws m = some (xs, c)) :
    moduleLoop G unk swap cb ws m s = some (feed cb s xs c) := by
  fun_induction trace G unk swap ws m generalizing s xs c with
  | case1 m hlt c' hp =>
    simp only [Option.some.injEq, Prod.mk.injEq] at h
    obtain ⟨rfl, rfl⟩ := h
    rw [moduleLoop, if_pos hlt]
    split <;> rename_i h1 <;> rw [hp] at h1
    · simp only [IR.err.injEq] at h1; subst h1; rfl
    · simp at h1
    · simp at h1
  | case2 => simp at h
  | case3 m hlt m' x hp ih =>
    obtain ⟨⟨ys, c1⟩, h1, h2⟩ := Option.map_eq_some_iff.1 h
    simp only [Prod.mk.injEq] at h2
    obtain ⟨rfl, rfl⟩ := h2
    rw [moduleLoop, if_pos hlt]
    split <;> rename_i h2 <;> rw [hp] at h2
    · simp at h2
    · simp at h2
    · simp only [IR.inst.injEq] at h2
      obtain ⟨rfl, rfl⟩ := h2
      simp only [feed]
      split
      · rfl
      · exact ih h1
  | case4 => simp at h
  | case5 m h1 h2 =>
    simp only [Option.some.injEq, Prod.mk.injEq] at h
    obtain ⟨rfl, rfl⟩ := h
    rw [moduleLoop, if_neg h1, if_neg h2]
    rfl

theorem trace_of_moduleLoop {G : Grammar} {unk swap : Bool} {A : Type}
    {ws : List Word} {m : MState} {a : A} {ys : List Inst} :
    moduleLoop G unk swap (fun (s : A × List Inst) x => ((s.1, s.2 ++ [x]), 0)) ws m (a, ys) =
      (trace G unk swap ws m).map fun r => ((a, ys ++ r.1), r.2) := by
  fun_induction trace G unk swap ws m generalizing ys with
  | case1 m hlt c' hp =>
    rw [moduleLoop, if_pos hlt]
    split <;> rename_i h1 <;> rw [hp] at h1
    · simp only [IR.err.injEq] at h1; subst h1; simp
    · simp at h1
    · simp at h1
  | case2 m hlt hp =>
    rw [moduleLoop, if_pos hlt]
    split <;> rename_i h1 <;> rw [hp] at h1
    · simp at h1
    · rfl
    · simp at h1
  | case3 m hlt m' x hp ih =>
    rw [moduleLoop, if_pos hlt]
    split <;> rename_i h2 <;> rw [hp] at h2
    · simp at h2
    · simp at h2
    · simp only [IR.inst.injEq] at h2
      obtain ⟨rfl, rfl⟩ := h2
      simp only [ne_eq, not_true_eq_false, if_false]
      rw [ih]
      simp [Option.map_map, Function.comp_def]
  | case4 m h1 h2 => rw [moduleLoop, if_neg h1, if_pos h2]; rfl
  | case5 m h1 h2 => rw [moduleLoop, if_neg h1, if_neg h2]; simp

theorem trace_safe {G : Grammar} (hG : GrammarOk G) {unk swap : Bool} {ws : List Word} {m : MState}
    (hle : m.idx ≤ ws.length) (himp : ∀ x v, m.imports x = some v → v ≠ 0) :
    trace G unk swap ws m ≠ none := by
  fun_induction trace G unk swap ws m with
  | case1 => simp
  | case2 m hlt hp => exact absurd hp (parseInstruction_safe hG hlt himp).1
  | case3 m hlt m' x hp ih =>
    have := ih (parseInstruction_idx hp).2 ((parseInstruction_safe hG hlt himp).2 _ _ hp)
    simpa using this
  | case4 m h1 h2 => omega
  | case5 => simp

theorem parseInstruction_take {G : Grammar} (hG : GrammarOk G) {unk swap : Bool} {ws : List Word}
    {m m' : MState} {x : Inst} {n : Nat} (himp : ∀ x v, m.imports x = some v → v ≠ 0)
    (h : parseInstruction G unk swap ws m = .inst m' x) (hn : m'.idx ≤ n) (hl : n ≤ ws.length) :
    parseInstruction G unk swap (ws.take n) m = .inst m' x := by
  have hidx := parseInstruction_idx h
  have hraw : ws[m.idx]? = some (ws[m.idx]'(by omega)) := List.getElem?_eq_getElem _
  have hraw' : (ws.take n)[m.idx]? = some (ws[m.idx]'(by omega)) := by
    rw [List.getElem?_take_of_lt (by omega)]; exact hraw
  unfold parseInstruction at h ⊢
  rw [hraw] at h
  rw [hraw']
  simp only at h ⊢
  generalize hfw : fixW swap (ws[m.idx]'(by omega)) = first at *
  split at h
  · simp at h
  · rename_i hwc
    rw [if_neg hwc]
    split at h
    · rename_i hop
      split at h
      · rename_i hu
        have := emitAsUnknown_inv h
        simp only [if_pos hu]
        exact emitAsUnknown_take hl (by have := emitAsUnknown_idx h; omega) h
      · simp at h
    · rename_i ops hop
      have hlt : m.idx < ({ m with idx := m.idx + 1 } : MState).idx := Nat.lt_succ_self _
      split at h
      · simp at h
      · simp at h
      · rename_i m1 i1 h1
        have he := emitAsUnknown_idx h
        rw [(operandLoop_take hlt hl (by omega)).2 m1 i1 h1]
        exact emitAsUnknown_take hl (by omega) h
      · rename_i m1 i1 h1
        obtain ⟨f1, f2, f3, f4, f5, f6⟩ := finishInst_inst h
        have hr := (recordNumberType_idx f5).1
        rw [(operandLoop_take hlt hl (by omega)).1 m1 i1 h1 (by omega)]
        simp only
        have hst := operandLoop_stage hG (unk := unk) (swap := swap) (ws := ws)
          (stop := m.idx + wordCount first) (i := ⟨0, 0, 0, [first], [], pushTypes ops []⟩)
          (m := { m with idx := m.idx + 1 }) (Nat.lt_succ_self _) himp (start_stage hG hop)
        rw [h1] at hst
        have hme : moreExpected i1.expected = false := by
          unfold finishInst at h
          split at h
          · simp at h
          · rename_i q; simpa using q
        have hfix := stage_fixed hst.1 hme
        refine finishInst_take hl (by omega) ?_ h
        exact (recordNumberType_reads (by omega) hl (fun q => by have := hfix.1 q; omega)
          (fun q => by have := hfix.2 q; omega)).1

theorem trace_cons {G : Grammar} {unk swap : Bool} {ws : List Word} {m m' : MState} {x : Inst}
    (h : parseInstruction G unk swap ws m = .inst m' x) (hlt : m.idx < ws.length) :
    trace G unk swap ws m = (trace G unk swap ws m').map fun r => (x :: r.1, r.2) := by
  rw [trace, if_pos hlt]
  split <;> rename_i h1 <;> rw [h] at h1
  · simp at h1
  · simp at h1
  · simp only [IR.inst.injEq] at h1
    obtain ⟨rfl, rfl⟩ := h1
    rfl

theorem InstOk.length {unk swap : Bool} {ws : List Word} {m m' : MState} {x : Inst}
    (h : InstOk unk swap ws m m' x) : m'.idx = m.idx + x.words.length := by
  have h1 := h.lt
  have h2 := h.le
  rw [h.words]
  simp only [List.length_map, List.length_take, List.length_drop]
  omega

/-- On the buffer cut after the first `k` instructions, exactly those are seen. -/
theorem trace_take {G : Grammar} (hG : GrammarOk G) {unk swap : Bool} {ws : List Word} {m : MState}
    {xs : List Inst} {c : Int} (hle : m.idx ≤ ws.length) (himp : ∀ x v, m.imports x = some v → v ≠ 0)
    (h : trace G unk swap ws m = some (xs, c)) (k : Nat) :
    trace G unk swap (ws.take (m.idx + ((xs.take k).map (fun x => x.words.length)).sum)) m
      = some (xs.take k, 0) := by
  have stop : ∀ (m : MState), m.idx ≤ ws.length → trace G unk swap (ws.take m.idx) m = some ([], 0) := by
    intro m hm
    have hlen : (ws.take m.idx).length = m.idx := by simp; omega
    rw [trace, if_neg (by omega), if_neg (by omega)]; rfl
  fun_induction trace G unk swap ws m generalizing k xs with
  | case1 m hlt c' hp =>
    simp only [Option.some.injEq, Prod.mk.injEq] at h
    obtain ⟨rfl, rfl⟩ := h
    simpa using stop m hle
  | case2 => simp at h
  | case3 m hlt m' x hp ih =>
    obtain ⟨⟨ys, c1⟩, h1, h2⟩ := Option.map_eq_some_iff.1 h
    simp only [Prod.mk.injEq] at h2
    obtain ⟨rfl, rfl⟩ := h2
    cases k with
    | zero => simpa using stop m hle
    | succ k =>
      have hok := parseInstruction_ok hp
      have hlen := hok.length
      have ih := ih hok.le ((parseInstruction_safe hG hlt himp).2 _ _ hp) h1 k
      simp only [List.take_succ_cons, List.map_cons, List.sum_cons]
      rw [← Nat.add_assoc, ← hlen]
      have hpre : m'.idx + ((ys.take k).map (fun x => x.words.length)).sum ≤ ws.length := by
        rcases Nat.lt_or_ge ws.length (m'.idx + ((ys.take k).map (fun x => x.words.length)).sum) with hc | hc
        · -- otherwise the shortened buffer is the whole one
          exfalso
          have : ∀ (m : MState) (xs : List Inst) (c : Int), m.idx ≤ ws.length →
              trace G unk swap ws m = some (xs, c) →
              m.idx + (xs.map (fun x => x.words.length)).sum ≤ ws.length := by
            intro m xs c hle h
            fun_induction trace G unk swap ws m generalizing xs with
            | case1 => simp only [Option.some.injEq, Prod.mk.injEq] at h; rw [← h.1]; simpa using hle
            | case2 => simp at h
            | case3 m hlt m' x hp ih2 =>
              obtain ⟨⟨ys, c1⟩, h1, h2⟩ := Option.map_eq_some_iff.1 h
              simp only [Prod.mk.injEq] at h2
              obtain ⟨rfl, rfl⟩ := h2
              have hok := parseInstruction_ok hp
              have := ih2 _ hok.le h1
              have := hok.length
              simp only [List.map_cons, List.sum_cons]; omega
            | case4 => simp at h
            | case5 => simp only [Option.some.injEq, Prod.mk.injEq] at h; rw [← h.1]; simpa using hle
          have h3 := this m' ys c1 hok.le h1
          have h4 : ((ys.take k).map (fun x => x.words.length)).sum ≤ (ys.map (fun x => x.words.length)).sum := by
            conv => rhs; rw [← List.take_append_drop k ys]
            rw [List.map_append, List.sum_append]
            omega
          omega
        · exact hc
      have hlt' : m.idx < (ws.take (m'.idx + ((ys.take k).map (fun x => x.words.length)).sum)).length := by
        have := hok.lt
        rw [List.length_take]; omega
      rw [trace_cons (parseInstruction_take hG himp hp (by omega) hpre) hlt', ih]
      rfl
  | case4 => simp at h
  | case5 m h1 h2 =>
    simp only [Option.some.injEq, Prod.mk.injEq] at h
    obtain ⟨rfl, rfl⟩ := h
    simpa using stop m hle

/-! ## Error codes -/

theorem setNumericInfo_err {ty : Word} {m : MState} {i : IState} {c : Int}
    (h : setNumericInfo ty m i = .err c) : c ≠ 0 := by
  unfold setNumericInfo at h
  repeat' split at h
  all_goals first
    | (simp only [reduceCtorEq] at h; done)
    | (simp only [PR.err.injEq] at h; subst h; decide)

theorem maskLoop_err {G : Grammar} {t : OT} {unk : Bool} {c : Int} : ∀ (k : Nat) (rem : Word) (p : Pattern),
    maskLoop G t unk k rem p = .err c → c ≠ 0 := by
  intro k
  induction k with
  | zero => intro rem p h; simp only [maskLoop] at h; split at h <;> simp at h
  | succ k ih =>
    intro rem p h
    simp only [maskLoop] at h
    split at h
    · simp at h
    · split at h
      · split at h
        · split at h
          · simp at h
          · simp only [PR.err.injEq] at h; subst h; decide
        · exact ih _ _ h
      · exact ih _ _ h

theorem effect_err {G : Grammar} {unk swap : Bool} {ws : List Word} {off op : Nat}
    {t : OT} {word : Word} {m : MState} {i : IState} {c : Int}
    (h : effect G unk swap ws off op t word m i = .err c) : c ≠ 0 := by
  unfold effect at h
  simp only at h
  split at h
  all_goals
    (repeat' split at h
     all_goals first
      | (simp only [reduceCtorEq] at h; done)
      | (exact setNumericInfo_err h)
      | (rename_i h1; simp only [PR.err.injEq] at h; subst h; exact maskLoop_err _ _ _ h1)
      | (simp only [PR.err.injEq] at h; subst h; decide))

theorem parseOperand_err {G : Grammar} {unk swap : Bool} {ws : List Word} {off op : Nat} {t : OT}
    {m : MState} {i : IState} {c : Int} (h : parseOperand G unk swap ws off op t m i = .err c) : c ≠ 0 := by
  unfold parseOperand at h
  split at h
  · simp only [PR.err.injEq] at h; subst h; decide
  · split at h
    · simp at h
    · split at h
      · rename_i h1; simp only [PR.err.injEq] at h; subst h; exact effect_err h1
      · simp at h
      · simp at h
      · split at h
        · simp at h
        · simp only at h
          split at h
          · simp only [PR.err.injEq] at h; subst h; decide
          · split at h <;> simp at h

theorem operandLoop_err {G : Grammar} {unk swap : Bool} {ws : List Word} {off op stop : Nat}
    {m : MState} {i : IState} {c : Int} (h : operandLoop G unk swap ws off op stop m i = .err c) : c ≠ 0 := by
  fun_induction operandLoop G unk swap ws off op stop m i with
  | case1 => simp only [LR.err.injEq] at h; subst h; decide
  | case2 m i hlt t p ht c' hp => simp only [LR.err.injEq] at h; subst h; exact parseOperand_err hp
  | case3 => simp at h
  | case4 => simp at h
  | case5 m i hlt t p ht m' i' hp ih => exact ih h
  | case6 => simp at h

theorem emitAsUnknown_err {swap : Bool} {ws : List Word} {off wc op : Nat} {a b : Word} {e : Nat}
    {m : MState} {c : Int} (h : emitAsUnknown swap ws off wc op a b e m = .err c) : c ≠ 0 := by
  unfold emitAsUnknown at h
  split at h
  · simp only [IR.err.injEq] at h; subst h; decide
  · split at h <;> simp at h

theorem parseInstruction_err {G : Grammar} {unk swap : Bool} {ws : List Word} {m : MState} {c : Int}
    (h : parseInstruction G unk swap ws m = .err c) : c ≠ 0 := by
  unfold parseInstruction at h
  split at h
  · simp at h
  · simp only at h
    split at h
    · simp only [IR.err.injEq] at h; subst h; decide
    · split at h
      · split at h
        · exact emitAsUnknown_err h
        · simp only [IR.err.injEq] at h; subst h; decide
      · split at h
        · rename_i h1; simp only [IR.err.injEq] at h; subst h; exact operandLoop_err h1
        · simp at h
        · exact emitAsUnknown_err h
        · unfold finishInst at h
          repeat' split at h
          all_goals first
            | (simp only [reduceCtorEq] at h; done)
            | (simp only [IR.err.injEq] at h; subst h; decide)

/-! ## Consequences for all instructions -/

theorem trace_words {G : Grammar} {unk swap : Bool} {ws : List Word} {m : MState} {xs : List Inst}
    {c : Int} (h : trace G unk swap ws m = some (xs, c)) (hle : m.idx ≤ ws.length) :
    ∃ rest, ((ws.drop m.idx).map (fixW swap)) = (xs.map (·.words)).flatten ++ rest ∧
      (c = 0 → rest = []) := by
  fun_induction trace G unk swap ws m generalizing xs with
  | case1 m hlt c' hp =>
    simp only [Option.some.injEq, Prod.mk.injEq] at h
    obtain ⟨rfl, rfl⟩ := h
    refine ⟨_, rfl, ?_⟩
    intro h0
    rw [h0] at hp
    exact absurd rfl (parseInstruction_err hp)
  | case2 => simp at h
  | case3 m hlt m' x hp ih =>
    obtain ⟨⟨ys, c1⟩, h1, h2⟩ := Option.map_eq_some_iff.1 h
    simp only [Prod.mk.injEq] at h2
    obtain ⟨rfl, rfl⟩ := h2
    have hok := parseInstruction_ok hp
    obtain ⟨rest, e1, e2⟩ := ih h1 hok.le
    refine ⟨rest, ?_, e2⟩
    simp only [List.map_cons, List.flatten_cons, List.append_assoc]
    rw [← e1, hok.words, ← List.map_append]
    congr 1
    have hlt2 := hok.lt
    have : ws.drop m'.idx = (ws.drop m.idx).drop (m'.idx - m.idx) := by
      rw [List.drop_drop]; congr 1; omega
    rw [this, List.take_append_drop]
  | case4 => simp at h
  | case5 m h1 h2 =>
    simp only [Option.some.injEq, Prod.mk.injEq] at h
    obtain ⟨rfl, rfl⟩ := h
    refine ⟨[], ?_, fun _ => rfl⟩
    rw [List.drop_of_length_le (by omega)]; rfl

theorem trace_each {G : Grammar} {unk swap : Bool} {ws : List Word} {m : MState} {xs : List Inst}
    {c : Int} (h : trace G unk swap ws m = some (xs, c)) :
    ∀ x ∈ xs, ∃ m1 m2, InstOk unk swap ws m1 m2 x := by
  fun_induction trace G unk swap ws m generalizing xs with
  | case1 => simp only [Option.some.injEq, Prod.mk.injEq] at h; rw [← h.1]; simp
  | case2 => simp at h
  | case3 m hlt m' x hp ih =>
    obtain ⟨⟨ys, c1⟩, h1, h2⟩ := Option.map_eq_some_iff.1 h
    simp only [Prod.mk.injEq] at h2
    obtain ⟨rfl, rfl⟩ := h2
    intro y hy
    rcases List.mem_cons.1 hy with rfl | hy
    · exact ⟨m, m', parseInstruction_ok hp⟩
    · exact ih h1 y hy
  | case4 => simp at h
  | case5 => simp only [Option.some.injEq, Prod.mk.injEq] at h; rw [← h.1]; simp

theorem trace_results {G : Grammar} {unk swap : Bool} {ws : List Word} {m : MState} {xs : List Inst}
    {c : Int} (h : trace G unk swap ws m = some (xs, c)) :
    ((xs.map (·.resultId)).filter (fun r => r != 0)).Nodup ∧
    ∀ x ∈ xs, x.resultId ≠ 0 → m.idType x.resultId = none := by
  fun_induction trace G unk swap ws m generalizing xs with
  | case1 => simp only [Option.some.injEq, Prod.mk.injEq] at h; rw [← h.1]; simp
  | case2 => simp at h
  | case3 m hlt m' x hp ih =>
    obtain ⟨⟨ys, c1⟩, h1, h2⟩ := Option.map_eq_some_iff.1 h
    simp only [Prod.mk.injEq] at h2
    obtain ⟨rfl, rfl⟩ := h2
    have hok := parseInstruction_ok hp
    obtain ⟨i1, i2⟩ := ih h1
    refine ⟨?_, ?_⟩
    · rw [List.map_cons, List.filter_cons]
      split
      · rename_i hx
        have hx : x.resultId ≠ 0 := by simpa using hx
        rw [List.nodup_cons]
        refine ⟨?_, i1⟩
        intro hmem
        obtain ⟨hm1, -⟩ := List.mem_filter.1 hmem
        obtain ⟨y, hy1, hy2⟩ := List.mem_map.1 hm1
        have := i2 y hy1 (by rw [hy2]; exact hx)
        rw [hy2] at this
        have h3 := (hok.result hx).2
        rw [this] at h3
        simp at h3
      · exact i1
    · intro y hy hne
      rcases List.mem_cons.1 hy with rfl | hy
      · exact (hok.result hne).1
      · have := i2 y hy hne
        cases h4 : m.idType y.resultId with
        | none => rfl
        | some v =>
          have := hok.mono y.resultId (by simp [h4])
          rw [i2 y hy hne] at this; simp at this
  | case4 => simp at h
  | case5 => simp only [Option.some.injEq, Prod.mk.injEq] at h; rw [← h.1]; simp

end Verif.Binary
