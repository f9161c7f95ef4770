import Verif.Disasm.Step
/-!
The operands, kind by kind.
-/
set_option linter.unusedSimpArgs false
set_option linter.unusedVariables false
namespace Verif.Disasm
open Verif.ParseNumber (Text NumberType)
open Verif.Binary (OT Grammar Pattern pushTypes takeFirst MState IState POperand NumType Eff PR isExtended
  effect parseOperand setNumericInfo)
open Verif.Asm hiding Inst Word
open Spec

/-- Where the operand is. -/
structure Pos (ws : List Word) (off wc : Nat) (x : Binary.Inst) (idx n : Nat) : Prop where
  xw : x.words = (ws.drop off).take wc
  lo : off < idx
  hi : idx + n ≤ off + wc
  len : idx + n ≤ ws.length
  wc : wc ≤ 65535

theorem Pos.offset {ws : List Word} {off wc : Nat} {x : Binary.Inst} {idx n : Nat} (h : Pos ws off wc x idx n)
    (h1 : 1 ≤ n) : (idx - off) % 65536 = idx - off := by
  have := h.hi; have := h.wc
  exact Nat.mod_eq_of_lt (by omega)

theorem Pos.words {ws : List Word} {off wc : Nat} {x : Binary.Inst} {idx n : Nat} (h : Pos ws off wc x idx n)
    (h1 : 1 ≤ n) : (x.words.drop ((idx - off) % 65536)).take n = (ws.drop idx).take n := by
  have := h.hi; have := h.lo
  rw [h.offset h1, h.xw, List.drop_take, List.drop_drop, List.take_take,
    show off + (idx - off) = idx by omega, show min n (wc - (idx - off)) = n by omega]

theorem Pos.word {ws : List Word} {off wc : Nat} {x : Binary.Inst} {idx n : Nat} (h : Pos ws off wc x idx n)
    (h1 : 1 ≤ n) : x.words[(idx - off) % 65536]? = ws[idx]? := by
  have := h.hi; have := h.lo
  rw [h.offset h1, h.xw, List.getElem?_take_of_lt (by omega), List.getElem?_drop,
    show off + (idx - off) = idx by omega]

theorem take_one_word {ws : List Word} {k : Nat} {w : Word} (h : ws[k]? = some w) : (ws.drop k).take 1 = [w] := by
  obtain ⟨hlt, he⟩ := List.getElem?_eq_some_iff.1 h
  rw [List.drop_eq_getElem_cons hlt, List.take_succ_cons, he]; simp

/-- An operand that is not an id, and leaves the tables alone. -/
theorem lit_step {G : Grammar} {A : AGrammar} {N : Names} {P : List Nat} {ws : List Word} {off op : Nat}
    {id0 : Word → Option Word} {tg : List (Bool × Word)} {st : S} {m m1 : MState} {i i1 : IState} {t : OT}
    {x : Binary.Inst} {o : POperand} {p q : Pattern} {tok : Text} {n : Nat}
    (h : StRel P ws off op id0 tg st m i) (hemit : emitOperand G N x o = some tok) (hsolid : Solid tok)
    (hid : o.type.isId = false) (hciv : t ≠ .OPTIONAL_CIV)
    (henc : encodeBasic A P t tok { st with expected := p } =
      .ok { st with inst := st.inst.add ((ws.drop m.idx).take n), expected := q })
    (hle : m.idx + n ≤ ws.length) (hm1 : m1 = { m with idx := m.idx + n })
    (hi : i1.typeId = i.typeId ∧ i1.extType = i.extType ∧ i1.expected = q) :
    StepOk G A N P ws off op id0 tg t x o { st with expected := p } m1 i1 := by
  refine ⟨tok, _, { st with inst := st.inst.add ((ws.drop m.idx).take n), expected := q }, hemit, hsolid,
    by rw [encodeOperand_basic hsolid hciv]; exact henc,
    h.lit (n := n) rfl hle ?_ rfl rfl rfl ?_ ?_ rfl hi.1 (by rw [hm1]), Le.refl _ _, ?_, ?_⟩
  · rw [hm1]; exact h.ctx.idx _
  · simp only [Asm.Inst.add]; rw [h.ext, hi.2.1]
  · exact hi.2.2.symm
  · rw [hid]; intro hc; cases hc
  · intro _ w hw
    obtain ⟨a, -, ha⟩ := List.mem_map.mp hw; cases ha

/-! ## Ids -/

theorem kind_id {t : OT} (h : t.kind = .id) : t = .ID ∨ t = .OPTIONAL_ID := by
  revert h; cases t <;> decide
theorem kind_scope {t : OT} (h : t.kind = .scopeOrSem) : t = .SCOPE_ID ∨ t = .MEMORY_SEMANTICS_ID := by
  revert h; cases t <;> decide
theorem kind_ext {t : OT} (h : t.kind = .extInstNum) : t = .EXTENSION_INSTRUCTION_NUMBER := by
  revert h; cases t <;> decide
theorem kind_spec {t : OT} (h : t.kind = .specConstOp) : t = .SPEC_CONSTANT_OP_NUMBER := by
  revert h; cases t <;> decide
theorem kind_int {t : OT} (h : t.kind = .litInt) : t = .LITERAL_INTEGER ∨ t = .OPTIONAL_LITERAL_INTEGER := by
  revert h; cases t <;> decide
theorem kind_float {t : OT} (h : t.kind = .litFloat) : t = .LITERAL_FLOAT := by
  revert h; cases t <;> decide
theorem kind_typed {t : OT} (h : t.kind = .typedLit) :
    t = .TYPED_LITERAL_NUMBER ∨ t = .OPTIONAL_TYPED_LITERAL_INTEGER := by
  revert h; cases t <;> decide
theorem kind_str {t : OT} (h : t.kind = .str) : t = .LITERAL_STRING ∨ t = .OPTIONAL_LITERAL_STRING := by
  revert h; cases t <;> decide

/-- An id. -/
theorem id_step {G : Grammar} {A : AGrammar} {N : Names} {P : List Nat} {ws : List Word} {off op wc : Nat}
    {id0 : Word → Option Word} {tg : List (Bool × Word)} {st : S} {m m1 : MState} {i i1 : IState} {t : OT}
    {x : Binary.Inst} {o : POperand} {p : Pattern} {raw : Word}
    (h : StRel P ws off op id0 tg st m i) (hpos : Pos ws off wc x m.idx 1)
    (ht : aKind t = .id) (htype : t ≠ .TYPE_ID) (hr : t ≠ .RESULT_ID)
    (hraw : ws[m.idx]? = some raw) (ho : o.offset = (m.idx - off) % 65536) (hot : o.type = t.recorded)
    (hok : OkId P raw) (hbud : m.idx < 2 ^ 32 - 2)
    (hm1 : m1 = { m with idx := m.idx + 1 })
    (hi : i1.typeId = i.typeId ∧ i1.expected = p)
    (hext : if isExtended op = true ∧ m.idx - off = 3 then m.imports raw = some i1.extType
      else i1.extType = i.extType) :
    StepOk G A N P ws off op id0 tg t x o { st with expected := p } m1 i1 := by
  obtain ⟨v, ids', hv, hle, hctx, henc⟩ := encodeId_dec (t := t) (st := { st with expected := p }) h.ctx hbud hok
  have hsolid : Solid ('%' :: dec raw.toNat) := solid_id (dec_valid _)
  have hciv : t ≠ .OPTIONAL_CIV := by rintro rfl; cases ht
  have hid : o.type.isId = true := by rw [hot]; revert ht; cases t <;> decide
  have hword : x.words[o.offset]? = some raw := by rw [ho, hpos.word (by omega), hraw]
  have hemit : emitOperand G N x o = some ('%' :: dec raw.toNat) := by
    unfold emitOperand
    rw [hword]
    have : o.type = .ID ∨ o.type = .SCOPE_ID ∨ o.type = .MEMORY_SEMANTICS_ID := by
      rw [hot]; revert ht htype hr; cases t <;> decide
    rcases this with h | h | h <;> simp only [h]
  have hb : encodeBasic A P t ('%' :: dec raw.toNat) { st with expected := p } =
      encodeId P t ('%' :: dec raw.toNat) { st with expected := p } := by
    unfold encodeBasic; rw [ht]
  simp only [htype, if_false] at henc
  have hcond : (isExtended st.inst.opcode = true ∧ st.inst.words.length = 3) ↔
      (isExtended op = true ∧ m.idx - off = 3) := by rw [h.opcode, h.length]
  have key : ∃ st1 : S, encodeId P t ('%' :: dec raw.toNat) { st with expected := p } = .ok st1 ∧
      st1.ctx = { st.ctx with ids := ids' } ∧ st1.inst.words = st.inst.words ++ [v] ∧
      st1.inst.opcode = st.inst.opcode ∧ st1.inst.typeId = st.inst.typeId ∧ st1.inst.extType = i1.extType ∧
      st1.expected = p := by
    by_cases hc : isExtended op = true ∧ m.idx - off = 3
    · rw [if_pos (hcond.mpr hc)] at henc
      rw [if_pos hc] at hext
      have him : st.ctx.imports v = some i1.extType := by
        rw [← hext]; exact hctx.imports raw v hv
      have hne := h.ctx.importsNe raw _ hext
      rw [him] at henc
      obtain ⟨k, hk⟩ : ∃ k, i1.extType = k + 1 := ⟨i1.extType - 1, by omega⟩
      rw [hk] at henc
      exact ⟨_, henc, rfl, rfl, rfl, rfl, hk.symm, rfl⟩
    · rw [if_neg (fun hc' => hc (hcond.mp hc'))] at henc
      rw [if_neg hc] at hext
      exact ⟨_, henc, rfl, rfl, rfl, rfl, by rw [hext]; exact h.ext, rfl⟩
  obtain ⟨st1, k1, k2, k3, k4, k5, k6, k7⟩ := key
  refine ⟨_, [(true, raw)], st1, hemit, hsolid, by rw [encodeOperand_basic hsolid hciv, hb, k1],
    h.id (v := v) hraw ?_ ?_ ?_ k3 k4 k6 ?_ ?_ (by rw [hm1]), ?_, ?_, ?_⟩
  · rw [k2, hm1]; exact hctx.idx _
  · rw [k2]; exact hle
  · rw [k2]; exact hv
  · rw [k7, hi.2]
  · rw [hi.1, k5, k2]
    intro h0; exact hle _ _ (h.typeId h0)
  · rw [k2]; exact hle
  · rw [hword]; intro _; rfl
  · rw [hid]; intro hc; cases hc

/-! ## Numbers which name something -/

theorem ext_step {G : Grammar} {A : AGrammar} {N : Names} (ag : Agree G A N) {P : List Nat} {ws : List Word}
    {off op wc : Nat} {id0 : Word → Option Word} {tg : List (Bool × Word)} {st : S} {m : MState} {i : IState} {t : OT}
    {x : Binary.Inst} {p : Pattern} {raw : Word} {e : Eff} {ops0 cv : List _}
    (h : StRel P ws off op id0 tg st m i) (hk : t.kind = .extInstNum)
    (hraw : ws[m.idx]? = some raw)
    (he : effect G false false ws off op t raw m { i with expected := p } = .ok e)
    (hpos : Pos ws off wc x m.idx e.nwords) (hxt : x.extType = i.extType) :
    StepOk G A N P ws off op id0 tg t x ⟨(m.idx - off) % 65536, e.nwords, t.recorded, e.nkind, e.width, e.enc⟩
      { st with expected := p } { e.m with idx := m.idx + e.nwords }
      { e.i with operands := ops0, conv := cv } := by
  have ht := kind_ext hk; subst ht
  unfold effect at he
  simp only [hk] at he
  split at he
  · cases he
  split at he
  · cases he
  split at he
  · rename_i ops hops
    simp only [PR.ok.injEq] at he
    subst he
    have hword := hpos.word (by simp)
    rw [hraw] at hword
    obtain ⟨-, name, hn1, hn2, hn3⟩ := ag.extInst _ _ _ hops
    refine lit_step (tok := name) h ?_ (solid_name hn2) rfl (by decide) ?_ hpos.len rfl ⟨rfl, rfl, rfl⟩
    · unfold emitOperand
      simp only [hword, OT.recorded, hxt, hn1]
    · unfold encodeBasic
      simp only [aKind, h.ext, hn3, ag.nonSemantic, take_one_word hraw]
  · rename_i hops
    split at he
    · cases he
    · rename_i hns
      simp only [Bool.and_eq_true, Bool.not_eq_true', Bool.not_false, and_true, Bool.not_eq_false] at hns
      simp only [PR.ok.injEq] at he
      subst he
      have hword := hpos.word (by simp)
      rw [hraw] at hword
      obtain ⟨hn1, hn2⟩ := ag.extInstNumber _ _ hops
      refine lit_step (tok := dec raw.toNat) h ?_ (solid_name (dec_nameOk _)) rfl (by decide) ?_ hpos.len rfl
        ⟨rfl, rfl, rfl⟩
      · unfold emitOperand
        simp only [hword, OT.recorded, hxt, hn1, hns, if_true]
      · unfold encodeBasic
        simp only [aKind, h.ext, hn2, ag.nonSemantic, hns, take_one_word hraw, Bool.true_eq_false, if_false,
          textToLiteral_dec _ raw.isLt, BitVec.ofNat_toNat, BitVec.setWidth_eq]

theorem spec_step {G : Grammar} {A : AGrammar} {N : Names} (ag : Agree G A N) {P : List Nat} {ws : List Word}
    {off op wc : Nat} {id0 : Word → Option Word} {tg : List (Bool × Word)} {st : S} {m : MState} {i : IState} {t : OT}
    {x : Binary.Inst} {p : Pattern} {raw : Word} {e : Eff} {ops0 cv : List _}
    (h : StRel P ws off op id0 tg st m i) (hk : t.kind = .specConstOp)
    (hraw : ws[m.idx]? = some raw)
    (he : effect G false false ws off op t raw m { i with expected := p } = .ok e)
    (hpos : Pos ws off wc x m.idx e.nwords)
    (hok : OperandOk A N x ⟨(m.idx - off) % 65536, e.nwords, t.recorded, e.nkind, e.width, e.enc⟩) :
    StepOk G A N P ws off op id0 tg t x ⟨(m.idx - off) % 65536, e.nwords, t.recorded, e.nkind, e.width, e.enc⟩
      { st with expected := p } { e.m with idx := m.idx + e.nwords }
      { e.i with operands := ops0, conv := cv } := by
  have ht := kind_spec hk; subst ht
  unfold effect at he
  simp only [hk] at he
  split at he
  · cases he
  split at he
  · cases he
  rename_i hsp
  split at he
  · cases he
  rename_i ops hops
  split at he
  · cases he
  rename_i hlen
  simp only [PR.ok.injEq] at he
  subst he
  have hword := hpos.word (by simp)
  rw [hraw] at hword
  obtain ⟨d, hd⟩ := Option.isSome_iff_exists.1 (hok.specOp rfl raw hword)
  obtain ⟨d1, d2, -, name, d3, -, -⟩ := ag.opcode _ _ hd
  have hs : G.specConstOp raw.toNat = true := by
    cases hc : G.specConstOp raw.toNat with
    | true => rfl
    | false => exact absurd (.inr hc) hsp
  obtain ⟨s1, s2, s3⟩ := ag.specConstOp _ _ hs d3
  obtain ⟨s4, s5, -⟩ := s3 d hd
  rw [d2] at hops; cases hops
  refine lit_step (tok := name) h ?_ (solid_name s1) rfl (by decide) ?_ hpos.len rfl ⟨rfl, rfl, rfl⟩
  · unfold emitOperand
    simp only [hword, OT.recorded, d3]
  · unfold encodeBasic
    simp only [aKind, s2, hd, s4, s5, hlen, Bool.true_eq_false, or_self, if_false, d1, take_one_word hraw,
      BitVec.ofNat_toNat, BitVec.setWidth_eq]

/-- Enumerants. -/
theorem enum_facts {t : OT} (h : t.kind = .enum ∨ t.kind = .sourceLang) : aKind t = .enum ∧
    t.recorded.isId = false ∧ t ≠ .OPTIONAL_CIV := by
  revert h; cases t <;> decide

theorem emit_enum {G : Grammar} {N : Names} {t : OT} (h : t.kind = .enum ∨ t.kind = .sourceLang) {x : Binary.Inst}
    {o : POperand} (ho : o.type = t.recorded) {w : Word} (hw : x.words[o.offset]? = some w) :
    emitOperand G N x o = N.operand t.recorded w := by
  unfold emitOperand
  rw [hw, ho]
  revert h
  cases t <;> intro h <;> first | (exfalso; revert h; decide) | rfl

theorem enum_step {G : Grammar} {A : AGrammar} {N : Names} (ag : Agree G A N) {P : List Nat} {ws : List Word}
    {off op wc : Nat} {id0 : Word → Option Word} {tg : List (Bool × Word)} {st : S} {m : MState} {i : IState} {t : OT}
    {x : Binary.Inst} {p : Pattern} {raw : Word} {e : Eff} {ops0 cv : List _}
    (h : StRel P ws off op id0 tg st m i) (hk : t.kind = .enum ∨ t.kind = .sourceLang)
    (hraw : ws[m.idx]? = some raw)
    (he : effect G false false ws off op t raw m { i with expected := p } = .ok e)
    (hpos : Pos ws off wc x m.idx e.nwords) :
    StepOk G A N P ws off op id0 tg t x ⟨(m.idx - off) % 65536, e.nwords, t.recorded, e.nkind, e.width, e.enc⟩
      { st with expected := p } { e.m with idx := m.idx + e.nwords }
      { e.i with operands := ops0, conv := cv } := by
  have he' : (match G.operand t raw with
      | none => if false then PR.retry else .err Binary.cInvalidBinary
      | some ops => .ok ⟨1, .none, 0, 0, m, { i with expected := pushTypes ops p }⟩) = PR.ok e := by
    unfold effect at he
    rcases hk with hk | hk <;> simp only [hk] at he <;> exact he
  split at he'
  · simp at he'
  rename_i ops hops
  simp only [PR.ok.injEq] at he'
  subst he'
  have hword := hpos.word (by simp)
  rw [hraw] at hword
  obtain ⟨f1, f2, f3⟩ := enum_facts hk
  obtain ⟨-, -, name, hn1, hn2, hn3⟩ := ag.operand _ _ _ hops
  refine lit_step (tok := name) h ?_ (solid_name hn2) f2 f3 ?_ hpos.len rfl ⟨rfl, rfl, rfl⟩
  · rw [emit_enum hk rfl hword, hn1]
  · unfold encodeBasic
    simp only [f1, hn3, take_one_word hraw]

end Verif.Disasm
