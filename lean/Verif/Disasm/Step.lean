import Verif.Disasm.Masks
import Verif.Binary.Loop
/-!
One operand: the parser reads it, the disassembler prints it, the assembler reads the text.
-/
set_option linter.unusedSimpArgs false
set_option linter.unusedVariables false
namespace Verif.Disasm
open Verif.ParseNumber (Text NumberType)
open Verif.Binary (OT Grammar Pattern pushTypes takeFirst MState IState POperand NumType Eff PR isExtended
  effect parseOperand setNumericInfo)
open Verif.Asm hiding Inst Word
open Spec

/-- Ids are only added. -/
def Le (P : List Nat) (a b : Ids) : Prop := ∀ w v, rho P a w = some v → rho P b w = some v

theorem Le.refl (P : List Nat) (a : Ids) : Le P a a := fun _ _ h => h
theorem Le.trans {P : List Nat} {a b c : Ids} (h : Le P a b) (h' : Le P b c) : Le P a c :=
  fun w v hw => h' w v (h w v hw)

/-- A word of an instruction as the assembler writes it; the flag marks ids. -/
def ren (P : List Nat) (ids : Ids) (q : Bool × Word) : Word :=
  if q.1 then (rho P ids q.2).getD 0 else q.2

theorem ren_le {P : List Nat} {a b : Ids} (h : Le P a b) {tg : List (Bool × Word)}
    (ht : ∀ w, (true, w) ∈ tg → (rho P a w).isSome) : tg.map (ren P b) = tg.map (ren P a) := by
  apply List.map_congr_left
  rintro ⟨f, w⟩ hm
  cases f with
  | false => rfl
  | true =>
    obtain ⟨v, hv⟩ := Option.isSome_iff_exists.1 (ht w hm)
    simp only [ren, if_true, hv, h w v hv]

/-- The states of the assembler and of the parser inside an instruction. `tg` are the words so far
after the first. -/
structure StRel (P : List Nat) (ws : List Word) (off op : Nat) (id0 : Word → Option Word)
    (tg : List (Bool × Word)) (st : S) (m : MState) (i : IState) : Prop where
  ctx : CtxRel P m.idx st.ctx m id0
  words : st.inst.words = 0 :: tg.map (ren P st.ctx.ids)
  known : ∀ w, (true, w) ∈ tg → (rho P st.ctx.ids w).isSome
  len : m.idx = off + 1 + tg.length
  slice : (ws.drop (off + 1)).take tg.length = tg.map (·.2)
  opcode : st.inst.opcode = op
  ext : st.inst.extType = i.extType
  expected : st.expected = i.expected
  typeId : i.typeId ≠ 0 → rho P st.ctx.ids i.typeId = some st.inst.typeId

theorem StRel.length {P : List Nat} {ws : List Word} {off op : Nat} {id0 : Word → Option Word}
    {tg : List (Bool × Word)} {st : S} {m : MState} {i : IState} (h : StRel P ws off op id0 tg st m i) :
    st.inst.words.length = m.idx - off := by
  rw [h.words, h.len]; simp; omega

/-- More words. -/
theorem slice_push {ws : List Word} {off n : Nat} {tg tg1 : List (Bool × Word)}
    (h : (ws.drop (off + 1)).take tg.length = tg.map (·.2))
    (h1 : (ws.drop (off + 1 + tg.length)).take tg1.length = tg1.map (·.2)) :
    (ws.drop (off + 1)).take (tg ++ tg1).length = (tg ++ tg1).map (·.2) := by
  rw [List.length_append, List.take_add, h, List.drop_drop, h1, List.map_append]

/-- Words which are not ids. -/
theorem StRel.lit {P : List Nat} {ws : List Word} {off op : Nat} {id0 : Word → Option Word}
    {tg : List (Bool × Word)} {st st1 : S} {m m1 : MState} {i i1 : IState} {n : Nat} {news : List Word}
    (h : StRel P ws off op id0 tg st m i)
    (hnews : news = (ws.drop m.idx).take n) (hle : m.idx + n ≤ ws.length)
    (hctx : CtxRel P m.idx st1.ctx m1 id0) (hids : st1.ctx.ids = st.ctx.ids)
    (hw : st1.inst.words = st.inst.words ++ news) (hop : st1.inst.opcode = st.inst.opcode)
    (hext : st1.inst.extType = i1.extType) (hexp : st1.expected = i1.expected)
    (hty : st1.inst.typeId = st.inst.typeId) (hity : i1.typeId = i.typeId)
    (hidx : m1.idx = m.idx + n) :
    StRel P ws off op id0 (tg ++ news.map (false, ·)) st1 m1 i1 := by
  have hlen : news.length = n := by rw [hnews]; simp; omega
  refine ⟨hctx.mono (by omega), ?_, ?_, ?_, ?_, by rw [hop, h.opcode], hext, hexp, ?_⟩
  · rw [hw, h.words, hids, List.map_append, List.map_map]
    have : (ren P st.ctx.ids ∘ fun x => (false, x)) = id := by funext q; rfl
    simp [this]
  · intro w hm
    rw [hids]
    rcases List.mem_append.mp hm with hm | hm
    · exact h.known w hm
    · obtain ⟨a, -, ha⟩ := List.mem_map.mp hm; cases ha
  · rw [hidx, h.len]; simp [hlen]; omega
  · apply slice_push h.slice (n := n)
    rw [← h.len]
    simp only [List.length_map, List.map_map]
    have hid : ((fun q : Bool × Word => q.2) ∘ fun x => (false, x)) = _root_.id := by funext q; rfl
    rw [hlen, hid, List.map_id, hnews]
  · rw [hity, hids, hty]; exact h.typeId

/-- The outcome of one operand. -/
def StepOk (G : Grammar) (A : AGrammar) (N : Names) (P : List Nat) (ws : List Word) (off op : Nat)
    (id0 : Word → Option Word) (tg : List (Bool × Word)) (t : OT) (x : Binary.Inst) (o : POperand)
    (st : S) (m1 : MState) (i1 : IState) : Prop :=
  ∃ tok tg1 st1, emitOperand G N x o = some tok ∧ Solid tok ∧
    encodeOperand A P t tok st = .ok st1 ∧ StRel P ws off op id0 (tg ++ tg1) st1 m1 i1 ∧
    Le P st.ctx.ids st1.ctx.ids ∧
    (o.type.isId = true → tg1 = (x.words[o.offset]?).toList.map (true, ·)) ∧
    (o.type.isId = false → ∀ w, (true, w) ∉ tg1)

theorem encodeOperand_basic {A : AGrammar} {P : List Nat} {t : OT} {tok : Text} {st : S} (hs : Solid tok)
    (ht : t ≠ .OPTIONAL_CIV) : encodeOperand A P t tok st = encodeBasic A P t tok st := by
  unfold encodeOperand
  obtain ⟨c, r, rfl, -, -, -, hc⟩ := hs.head
  rw [if_neg (by simpa using hc), if_neg ht]

/-! ## Ids -/

theorem encodeId_dec {P : List Nat} {t : OT} {w : Word} {st : S} {n : Nat} {m : MState} {id0 : Word → Option Word}
    (h : CtxRel P n st.ctx m id0) (hn : n < 2 ^ 32 - 2) (hw : OkId P w) :
    ∃ v ids', rho P ids' w = some v ∧ Le P st.ctx.ids ids' ∧
      CtxRel P (n + 1) { st.ctx with ids := ids' } m id0 ∧
      encodeId P t ('%' :: dec w.toNat) st =
        (let inst := (if t = .TYPE_ID then { st.inst with typeId := v } else st.inst).add [v]
         if isExtended st.inst.opcode ∧ st.inst.words.length = 3 then
            match st.ctx.imports v with
            | none => .err
            | some 0 => .err
            | some e => .ok { st with ctx := { st.ctx with ids := ids' }, inst := { inst with extType := e } }
          else .ok { st with ctx := { st.ctx with ids := ids' }, inst := inst }) := by
  obtain ⟨v, ids', h1, h2, h3, h4⟩ := h.assign hn w hw
  refine ⟨v, ids', h3, h4, h2, ?_⟩
  unfold encodeId
  simp only [dec_valid, Bool.true_eq_false, reduceCtorEq, if_false, h1, BitVec.ofNat_toNat, BitVec.setWidth_eq]
  have ho : ((if t = OT.TYPE_ID then { st.inst with typeId := v } else st.inst).add [v]).opcode = st.inst.opcode := by
    split <;> rfl
  have hl : ((if t = OT.TYPE_ID then { st.inst with typeId := v } else st.inst).add [v]).words.length =
      st.inst.words.length + 1 := by
    split <;> simp [Asm.Inst.add]
  rw [ho, hl]
  simp only [Nat.reduceEqDiff]
  rfl

/-- An id, as a new word. -/
theorem StRel.id {P : List Nat} {ws : List Word} {off op : Nat} {id0 : Word → Option Word}
    {tg : List (Bool × Word)} {st st1 : S} {m m1 : MState} {i i1 : IState} {w v : Word}
    (h : StRel P ws off op id0 tg st m i) (hraw : ws[m.idx]? = some w)
    (hctx : CtxRel P (m.idx + 1) st1.ctx m1 id0) (hle : Le P st.ctx.ids st1.ctx.ids)
    (hv : rho P st1.ctx.ids w = some v)
    (hw : st1.inst.words = st.inst.words ++ [v]) (hop : st1.inst.opcode = st.inst.opcode)
    (hext : st1.inst.extType = i1.extType) (hexp : st1.expected = i1.expected)
    (hty : i1.typeId ≠ 0 → rho P st1.ctx.ids i1.typeId = some st1.inst.typeId)
    (hidx : m1.idx = m.idx + 1) :
    StRel P ws off op id0 (tg ++ [(true, w)]) st1 m1 i1 := by
  refine ⟨by rw [hidx]; exact hctx, ?_, ?_, ?_, ?_, by rw [hop, h.opcode], hext, hexp, hty⟩
  · rw [hw, h.words, List.map_append, ren_le hle h.known]
    simp [ren, hv]
  · intro a hm
    rcases List.mem_append.mp hm with hm | hm
    · obtain ⟨u, hu⟩ := Option.isSome_iff_exists.1 (h.known a hm)
      rw [hle a u hu]; rfl
    · simp only [List.mem_singleton, Prod.mk.injEq, true_and] at hm
      subst hm; rw [hv]; rfl
  · rw [hidx, h.len]; simp; omega
  · apply slice_push h.slice (n := 1)
    rw [← h.len]
    have hlt := (List.getElem?_eq_some_iff.1 hraw)
    obtain ⟨hlt, he⟩ := hlt
    simp only [List.length_singleton, List.map_cons, List.map_nil]
    rw [List.drop_eq_getElem_cons hlt, List.take_succ_cons, he]; simp

end Verif.Disasm
