import Verif.Disasm.Loop
/-!
The type and the result of an instruction, which come before the other operands.
-/
set_option linter.unusedSimpArgs false
set_option linter.unusedVariables false
namespace Verif.Disasm
open Verif.ParseNumber (Text NumberType)
open Verif.Binary (OT Grammar Pattern pushTypes takeFirst MState IState POperand NumType Eff PR isExtended
  effect parseOperand)
open Verif.Asm hiding Inst Word
open Verif.Asm.Spec (Separated)
open Spec

/-- A mandatory operand is there if the instruction is complete. -/
theorem loop_must {G : Grammar} {ws : List Word} {off op stop : Nat} {m m' : MState} {i i' : IState} {t : OT}
    {r : Pattern} (h : Binary.operandLoop G false false ws off op stop m i = .ok m' i')
    (htf : takeFirst i.expected = some (t, r)) (he : i.expected = t :: r) (ho : t.isOptional = false)
    (hfin : ∀ t p, i'.expected = t :: p → t.isOptional = true) :
    ∃ m1 i1, parseOperand G false false ws off op t m { i with expected := r } = .ok (m1, i1) ∧
      Binary.operandLoop G false false ws off op stop m1 i1 = .ok m' i' := by
  rw [Binary.operandLoop] at h
  split at h
  · split at h
    · cases h
    · rename_i t' p' hc
      rw [htf] at hc; cases hc
      split at h
      · cases h
      · cases h
      · cases h
      · rename_i m1 i1 hp
        exact ⟨m1, i1, hp, h⟩
  · cases h
    rw [hfin _ _ he] at ho; cases ho

/-- What is common to both. -/
structure HeadOk (G : Grammar) (A : AGrammar) (N : Names) (P : List Nat) (ws : List Word) (off op stop : Nat)
    (id0 : Word → Option Word) (x : Binary.Inst) (res : Text) (m' : MState) (i' : IState)
    (st st1 : S) (m m1 : MState) (i i1 : IState) (tg tg1 : List (Bool × Word)) (T : Text) : Prop where
  loop : Binary.operandLoop G false false ws off op stop m1 i1 = .ok m' i'
  rel : StRel P ws off op id0 (tg ++ tg1) st1 m1 i1
  le : Le P st.ctx.ids st1.ctx.ids
  numType : m1.numType = m.numType
  imports : m1.imports = m.imports
  extType : i1.extType = i.extType
  idx : m1.idx = m.idx + tg1.length
  emit : ∃ os, i1.operands = i.operands ++ os ∧
    (∀ os2 T2, emitOperands G N x os2 = some T2 → emitOperands G N x (os ++ os2) = some (T ++ T2)) ∧
    (∀ o ∈ os, o.type.isId = true ∧ ∀ w, x.words[o.offset]? = some w → (true, w) ∈ tg1) ∧
    (os = [] ↔ tg1 = [])
  asm : ∀ k, Sep k → Sep (T ++ k) ∧ Asm.operandLoop A P res st (T ++ k) = Asm.operandLoop A P res st1 k

theorem head_type {G : Grammar} {A : AGrammar} {N : Names} {P : List Nat} {ws : List Word}
    {off op wc : Nat} {id0 : Word → Option Word} {m m' : MState} {i i' : IState} {x : Binary.Inst} {st : S}
    {b : Bool} {R : Pattern} {res : Text}
    (hxw : x.words = (ws.drop off).take wc) (hwc : wc ≤ 65535) (hbud : ws.length < 2 ^ 32 - 2)
    (h : Binary.operandLoop G false false ws off op (off + wc) m i = .ok m' i')
    (hend : m'.idx = off + wc) (hidx : m.idx = off + 1)
    (hfin : ∀ t p, i'.expected = t :: p → t.isOptional = true)
    (hid : ∀ o ∈ i'.operands, o.type.isId = true → ∀ w, x.words[o.offset]? = some w → OkId P w)
    (hst : StRel P ws off op id0 [] st m i) (hty0 : i.typeId = 0)
    (he : i.expected = (if b then [.TYPE_ID] else []) ++ R) :
    ∃ m1 i1 st1 tg1 T, HeadOk G A N P ws off op (off + wc) id0 x res m' i' st st1 m m1 i i1 [] tg1 T ∧
      i1.expected = R ∧ i1.resultId = i.resultId ∧ m1.idType = m.idType ∧
      tg1 = (if b then [(true, i1.typeId)] else []) ∧ (b = true ↔ i1.typeId ≠ 0) := by
  cases b with
  | false =>
    simp only [Bool.false_eq_true, if_false, List.nil_append] at he
    refine ⟨m, i, st, [], [], ⟨h, hst, Le.refl _ _, rfl, rfl, rfl, rfl, ⟨[], by simp, ?_, by simp, by simp⟩, ?_⟩, he, rfl, rfl,
      rfl, by simp [hty0]⟩
    · intro os2 T2 h2; exact h2
    · intro k hk; exact ⟨hk, rfl⟩
  | true =>
    simp only [if_true, List.cons_append, List.nil_append] at he
    have htf : takeFirst i.expected = some (.TYPE_ID, R) := by rw [he]; rfl
    obtain ⟨m1, i1, hp, hl⟩ := loop_must h htf he rfl hfin
    obtain ⟨hm, os0, hos0⟩ := loop_mono hl
    obtain ⟨raw, e, hraw, hee, hlen, rfl, rfl⟩ := Binary.parseOperand_inv hp
    rw [show Binary.fixW false raw = raw from rfl] at hee
    unfold effect at hee
    simp only [show OT.kind .TYPE_ID = .typeId from rfl] at hee
    split at hee
    · cases hee
    rename_i hraw0
    simp only [PR.ok.injEq] at hee
    subst hee
    simp only at hm hlen hos0
    have hpos : Pos ws off wc x m.idx 1 := ⟨hxw, by omega, by omega, by omega, hwc⟩
    have hword : x.words[(m.idx - off) % 65536]? = some raw := by rw [hpos.word (by omega), hraw]
    have hok : OkId P raw := by
      refine hid ⟨(m.idx - off) % 65536, 1, OT.TYPE_ID.recorded, .none, 0, 0⟩ ?_ ?_ raw hword
      · rw [hos0]; simp
      · rfl
    obtain ⟨v, ids', hv, hle, hctx, henc⟩ := encodeId_dec (t := .TYPE_ID) (st := { st with expected := R })
      hst.ctx (by omega) hok
    simp only [if_true] at henc
    rw [if_neg (by rw [hst.length, hidx]; rintro ⟨-, hc⟩; omega)] at henc
    have hsolid : Solid ('%' :: dec raw.toNat) := solid_id (dec_valid _)
    refine ⟨_, _, { ctx := { st.ctx with ids := ids' }, inst := (({ st.inst with typeId := v } : Asm.Inst).add [v]), expected := R }, [(true, raw)], ' ' :: '%' :: dec raw.toNat, ⟨hl, ?_, ?_, rfl, rfl, rfl, rfl, ?_, ?_⟩, rfl, rfl, rfl, rfl,
      by simp only [true_iff]; exact hraw0⟩
    · refine hst.id (v := v) hraw (hctx.idx _) hle hv rfl rfl hst.ext rfl (fun _ => hv) rfl
    · exact hle
    · refine ⟨[_], rfl, ?_, ?_, by simp⟩
      · intro os2 T2 h2
        have hemit : emitOperand G N x ⟨(m.idx - off) % 65536, 1, OT.TYPE_ID.recorded, .none, 0, 0⟩ =
            some ('%' :: dec raw.toNat) := by
          unfold emitOperand
          rw [hword]
          rfl
        rw [List.cons_append, List.nil_append, emitOperands, if_neg (by simp [OT.recorded]), hemit, h2]
        simp
      · intro o ho
        simp only [List.mem_singleton] at ho
        subst ho
        refine ⟨rfl, ?_⟩
        intro w hw
        rw [hword] at hw; cases hw
        simp
    · intro k hk
      have e : (' ' :: '%' :: dec raw.toNat) ++ k = ' ' :: (('%' :: dec raw.toNat) ++ k) := by simp
      rw [e]
      refine ⟨Sep.token hsolid hk.separated, ?_⟩
      refine asmLoop_token (t := .TYPE_ID) (p := R) (by rw [hst.expected]; exact htf) (by decide) hsolid hk ?_
      rw [encodeOperand_basic hsolid (by decide)]
      have hb : encodeBasic A P .TYPE_ID ('%' :: dec raw.toNat) { st with expected := R } =
          encodeId P .TYPE_ID ('%' :: dec raw.toNat) { st with expected := R } := by
        unfold encodeBasic; rfl
      rw [hb, henc]

/-- A new definition in the tables of the parser. -/
theorem CtxRel.define {P : List Nat} {n : Nat} {c : Ctx} {m : MState} {id0 : Word → Option Word} {r ty v : Word}
    (h : CtxRel P n c m id0) (hv : rho P c.ids r = some v) (hr : m.idType r = none) :
    CtxRel P n c { m with idType := fun x => if x = r then some ty else m.idType x } id0 := by
  have key : ∀ w, (if w = r then some ty else m.idType w) = none → w ≠ r ∧ m.idType w = none := by
    intro w hw
    split at hw
    · cases hw
    · exact ⟨by assumption, hw⟩
  refine ⟨h.ids, h.types, h.imports, h.value, h.unvalued, ?_, ?_, ?_, h.range, h.importsNe⟩
  · intro w hw; exact h.undef w (key w hw).2
  · intro w hw
    simp only
    rw [if_neg (by rintro rfl; rw [hv] at hw; cases hw)]
    exact h.dom w hw
  · intro w hw; exact h.le w (key w hw).2

theorem asmLoop_result {A : AGrammar} {P : List Nat} {res : Text} {st st1 : S} {p : Pattern} {k : Text}
    (htf : takeFirst st.expected = some (.RESULT_ID, p)) (hr : res ≠ [])
    (he : encodeId P .RESULT_ID res { st with expected := p } = .ok st1) :
    Asm.operandLoop A P res st k = Asm.operandLoop A P res st1 k := by
  rw [Asm.operandLoop]
  split
  · rename_i h; rw [htf] at h; cases h
  · rename_i t' p' h
    rw [htf] at h; cases h
    rw [dif_pos ⟨rfl, hr⟩]
    split
    · rename_i hc; rw [he] at hc; cases hc; rfl
    · rename_i hc; rw [he] at hc; cases hc
    · rename_i hc; rw [he] at hc; cases hc
    · rename_i hc; rw [he] at hc; cases hc

theorem head_result {G : Grammar} {A : AGrammar} {N : Names} {P : List Nat} {ws : List Word}
    {off op wc : Nat} {id0 : Word → Option Word} {m m' : MState} {i i' : IState} {x : Binary.Inst} {st : S}
    {b : Bool} {R : Pattern} {res : Text} {tg : List (Bool × Word)}
    (hxw : x.words = (ws.drop off).take wc) (hwc : wc ≤ 65535) (hbud : ws.length < 2 ^ 32 - 2)
    (h : Binary.operandLoop G false false ws off op (off + wc) m i = .ok m' i')
    (hend : m'.idx = off + wc) (htg : tg.length ≤ 1)
    (hfin : ∀ t p, i'.expected = t :: p → t.isOptional = true)
    (hid : ∀ o ∈ i'.operands, o.type.isId = true → ∀ w, x.words[o.offset]? = some w → OkId P w)
    (hst : StRel P ws off op id0 tg st m i) (hr0 : i.resultId = 0)
    (hres : b = true → ∀ raw, ws[m.idx]? = some raw → res = '%' :: dec raw.toNat)
    (he : i.expected = (if b then [.RESULT_ID] else []) ++ R) :
    ∃ m1 i1 st1 tg1, HeadOk G A N P ws off op (off + wc) id0 x res m' i' st st1 m m1 i i1 tg tg1 [] ∧
      i1.expected = R ∧ i1.typeId = i.typeId ∧
      tg1 = (if b then [(true, i1.resultId)] else []) ∧ (b = true ↔ i1.resultId ≠ 0) ∧
      (b = true → ws[m.idx]? = some i1.resultId) ∧
      (if b then m.idType i1.resultId = none ∧ m1.idType = fun y =>
          if y = i1.resultId then some (if G.generatesType op then i1.resultId else i.typeId) else m.idType y
        else m1.idType = m.idType) := by
  cases b with
  | false =>
    simp only [Bool.false_eq_true, if_false, List.nil_append] at he
    refine ⟨m, i, st, [], ⟨h, by rw [List.append_nil]; exact hst, Le.refl _ _, rfl, rfl, rfl, rfl, ⟨[], by simp, ?_, by simp, by simp⟩, ?_⟩, he, rfl,
      rfl, by simp [hr0], by simp, rfl⟩
    · intro os2 T2 h2; exact h2
    · intro k hk; exact ⟨hk, rfl⟩
  | true =>
    simp only [if_true, List.cons_append, List.nil_append] at he
    have htf : takeFirst i.expected = some (.RESULT_ID, R) := by rw [he]; rfl
    obtain ⟨m1, i1, hp, hl⟩ := loop_must h htf he rfl hfin
    obtain ⟨hm, os0, hos0⟩ := loop_mono hl
    obtain ⟨raw, e, hraw, hee, hlen, rfl, rfl⟩ := Binary.parseOperand_inv hp
    rw [show Binary.fixW false raw = raw from rfl] at hee
    unfold effect at hee
    simp only [show OT.kind .RESULT_ID = .resultId from rfl] at hee
    split at hee
    · cases hee
    rename_i hraw0
    split at hee
    · cases hee
    rename_i hnew
    have hnew : m.idType raw = none := by simpa using hnew
    simp only [PR.ok.injEq] at hee
    subst hee
    simp only at hm hlen hos0
    have hlo : off < m.idx := by rw [hst.len]; omega
    have hpos : Pos ws off wc x m.idx 1 := ⟨hxw, by omega, by omega, by omega, hwc⟩
    have hword : x.words[(m.idx - off) % 65536]? = some raw := by rw [hpos.word (by omega), hraw]
    have hok : OkId P raw := by
      refine hid ⟨(m.idx - off) % 65536, 1, OT.RESULT_ID.recorded, .none, 0, 0⟩ ?_ ?_ raw hword
      · rw [hos0]; simp
      · rfl
    obtain ⟨v, ids', hv, hle, hctx, henc⟩ := encodeId_dec (t := .RESULT_ID) (st := { st with expected := R })
      hst.ctx (by omega) hok
    simp only [reduceCtorEq, if_false] at henc
    rw [if_neg (by rw [hst.length, hst.len]; rintro ⟨-, hc⟩; omega)] at henc
    have hres' := hres rfl raw hraw
    refine ⟨_, _, { ctx := { st.ctx with ids := ids' }, inst := st.inst.add [v], expected := R }, [(true, raw)], ⟨hl, ?_, ?_, rfl, rfl, rfl, rfl, ?_, ?_⟩, rfl, rfl, rfl,
      by simp only [true_iff]; exact hraw0, fun _ => hraw, hnew, rfl⟩
    · refine hst.id (v := v) hraw ((hctx.define hv hnew).idx _) hle hv rfl rfl hst.ext rfl ?_ rfl
      intro h0; exact hle _ _ (hst.typeId h0)
    · exact hle
    · refine ⟨[_], rfl, ?_, ?_, by simp⟩
      · intro os2 T2 h2
        rw [List.cons_append, List.nil_append, emitOperands, if_pos (by simp [OT.recorded]), h2]
        rfl
      · intro o ho
        simp only [List.mem_singleton] at ho
        subst ho
        refine ⟨rfl, ?_⟩
        intro w hw
        rw [hword] at hw; cases hw
        simp
    · intro k hk
      refine ⟨hk, ?_⟩
      rw [List.nil_append]
      refine asmLoop_result (p := R) (by rw [hst.expected]; exact htf) (by rw [hres']; simp) ?_
      rw [hres', henc]

end Verif.Disasm
