import Verif.Disasm.Head
/-!
One instruction: the text of the line, and what the assembler makes of it.
-/
set_option linter.unusedSimpArgs false
set_option linter.unusedVariables false
namespace Verif.Disasm
open Verif.ParseNumber (Text NumberType)
open Verif.Binary (OT Grammar Pattern pushTypes takeFirst MState IState POperand NumType Eff PR isExtended
  effect parseOperand parseInstruction)
open Verif.Asm hiding Inst Word
open Verif.Asm.Spec (Separated)
open Spec

/-! ## The end of the operands -/

/-- What follows the last operand of an instruction: nothing, or another instruction. -/
structure TailOk (k : Text) : Prop where
  sep : Sep k
  next : advance k = none ∨ ∃ s1, advance k = some s1 ∧ isStartOfNewInst s1 = some true

theorem takeFirst_optional {t t' : OT} {q p : Pattern} (h : takeFirst (t :: q) = some (t', p))
    (ho : t.isOptional = true) : t'.isOptional = true ∧ t' ≠ .RESULT_ID := by
  cases t <;> first | (exact absurd ho (by decide)) | skip
  all_goals
    simp only [takeFirst, Binary.expandOnce, Option.some.injEq, Prod.mk.injEq] at h
    obtain ⟨rfl, -⟩ := h
    decide

theorem asmLoop_end {A : AGrammar} {P : List Nat} {res : Text} {st : S} {k : Text}
    (hfin : ∀ t p, st.expected = t :: p → t.isOptional = true) (hk : TailOk k) :
    ∃ st1 rest, Asm.operandLoop A P res st k = .done st1 rest ∧ st1.ctx = st.ctx ∧ st1.inst = st.inst ∧
      advance rest = advance k := by
  rw [Asm.operandLoop]
  split
  · exact ⟨st, k, rfl, rfl, rfl, rfl⟩
  · rename_i t p htf
    obtain ⟨ho, hr⟩ : t.isOptional = true ∧ t ≠ .RESULT_ID := by
      cases he : st.expected with
      | nil => rw [he] at htf; cases htf
      | cons a q => rw [he] at htf; exact takeFirst_optional htf (hfin a q he)
    rw [dif_neg (fun hc => hr hc.1)]
    split
    · rename_i h
      rw [if_pos ho]
      exact ⟨_, [], rfl, rfl, rfl, by rw [h]; simp [advance, advanceTo]⟩
    · rename_i s1 h
      rcases hk.next with hn | ⟨s2, h2, h3⟩
      · rw [h] at hn; cases hn
      · rw [h] at h2; cases h2
        rw [h3]
        simp only [ho, if_true]
        exact ⟨_, s1, rfl, rfl, rfl, by rw [h]; exact advance_idem h⟩

/-! ## Number types -/

theorem loop_nil {G : Grammar} {ws : List Word} {off op stop : Nat} {m m' : MState} {i i' : IState}
    (h : Binary.operandLoop G false false ws off op stop m i = .ok m' i') (he : i.expected = []) :
    m' = m ∧ i' = i := by
  rw [Binary.operandLoop] at h
  split at h
  · split at h
    · cases h
    · rename_i hc; rw [he] at hc; cases hc
  · cases h; exact ⟨rfl, rfl⟩

theorem loop_int {G : Grammar} {ws : List Word} {off op stop : Nat} {m m' : MState} {i i' : IState} {r : Pattern}
    (h : Binary.operandLoop G false false ws off op stop m i = .ok m' i') (he : i.expected = .LITERAL_INTEGER :: r)
    (hfin : ∀ t p, i'.expected = t :: p → t.isOptional = true) :
    ∃ m1 i1 o, Binary.operandLoop G false false ws off op stop m1 i1 = .ok m' i' ∧ i1.expected = r ∧
      m1.idx = m.idx + 1 ∧ i1.operands = i.operands ++ [o] ∧ o.type.isId = false := by
  obtain ⟨m1, i1, hp, hl⟩ := loop_must h (t := .LITERAL_INTEGER) (r := r) (by rw [he]; rfl) he rfl hfin
  obtain ⟨raw, e, hraw, hee, hlen, rfl, rfl⟩ := Binary.parseOperand_inv hp
  unfold effect at hee
  simp only [show OT.kind .LITERAL_INTEGER = .litInt from rfl, PR.ok.injEq] at hee
  subst hee
  exact ⟨_, _, _, hl, rfl, rfl, rfl, rfl⟩

theorem loop_typeInt {G : Grammar} {ws : List Word} {off op stop : Nat} {m m' : MState} {i i' : IState}
    (h : Binary.operandLoop G false false ws off op stop m i = .ok m' i')
    (he : i.expected = [.LITERAL_INTEGER, .LITERAL_INTEGER])
    (hfin : ∀ t p, i'.expected = t :: p → t.isOptional = true) :
    ∃ os, i'.operands = i.operands ++ os ∧ (∀ o ∈ os, o.type.isId = false) ∧ m'.idx = m.idx + 2 := by
  obtain ⟨m1, i1, o1, h1, h2, h3, h4, h5⟩ := loop_int h he hfin
  obtain ⟨m2, i2, o2, k1, k2, k3, k4, k5⟩ := loop_int h1 h2 hfin
  obtain ⟨rfl, rfl⟩ := loop_nil k1 k2
  refine ⟨[o1, o2], by rw [k4, h4]; simp, ?_, by omega⟩
  intro o ho
  simp only [List.mem_cons, List.not_mem_nil, or_false] at ho
  rcases ho with rfl | rfl
  · exact h5
  · exact k5

theorem loop_typeFloat {G : Grammar} {A : AGrammar} {N : Names} (ag : Agree G A N) {ws : List Word}
    {off op stop : Nat} {m m' : MState} {i i' : IState}
    (h : Binary.operandLoop G false false ws off op stop m i = .ok m' i')
    (he : i.expected = [.LITERAL_INTEGER, .OPTIONAL_FPENCODING])
    (hfin : ∀ t p, i'.expected = t :: p → t.isOptional = true) :
    ∃ os, i'.operands = i.operands ++ os ∧ (∀ o ∈ os, o.type.isId = false) ∧
      (m'.idx = m.idx + 1 ∨
        (m'.idx = m.idx + 2 ∧ ∃ w, ws[m.idx + 1]? = some w ∧ (G.operand .FPENCODING w).isSome)) := by
  obtain ⟨m1, i1, o1, h1, h2, h3, h4, h5⟩ := loop_int h he hfin
  have hone : ∀ o ∈ [o1], o.type.isId = false := by
    intro o ho; simp only [List.mem_singleton] at ho; rw [ho]; exact h5
  rw [Binary.operandLoop] at h1
  split at h1
  · split at h1
    · cases h1
    · rename_i t p htf
      rw [h2] at htf
      simp only [takeFirst, Binary.expandOnce, Option.some.injEq, Prod.mk.injEq] at htf
      obtain ⟨rfl, rfl⟩ := htf
      split at h1
      · cases h1
      · cases h1
      · cases h1
      · rename_i m2 i2 hp
        obtain ⟨raw, e, hraw, hee, hlen, rfl, rfl⟩ := Binary.parseOperand_inv hp
        rw [show Binary.fixW false raw = raw from rfl] at hee
        unfold effect at hee
        simp only [show OT.kind .OPTIONAL_FPENCODING = .enum from rfl] at hee
        split at hee
        · simp at hee
        · rename_i ops hops
          obtain ⟨rfl, hs⟩ := ag.encoding _ _ hops
          simp only [PR.ok.injEq] at hee
          subst hee
          obtain ⟨rfl, rfl⟩ := loop_nil h1 rfl
          refine ⟨[o1, _], by simp only; rw [h4, List.append_assoc]; rfl, ?_, .inr ⟨by simp only; omega, raw, ?_, hs⟩⟩
          · intro o ho
            simp only [List.mem_cons, List.not_mem_nil, or_false] at ho
            rcases ho with rfl | rfl
            · exact h5
            · rfl
          · rw [← h3]; exact hraw
  · cases h1
    exact ⟨[o1], h4, hone, .inl h3⟩

theorem tag_two {tg : List (Bool × Word)} {n : Nat} (h : ∀ w, (true, w) ∉ tg) (hl : tg.length = n) :
    tg = (tg.map (·.2)).map (false, ·) := by
  rw [List.map_map]
  conv => lhs; rw [← List.map_id tg]
  apply List.map_congr_left
  rintro ⟨f, w⟩ hm
  cases f with
  | true => exact absurd hm (h w)
  | false => rfl

/-! ## After the operands -/

/-- The definition of a type. -/
theorem CtxRel.putType {P : List Nat} {n : Nat} {c : Ctx} {m : MState} {id0 : Word → Option Word} {r v : Word}
    {nt : NumType} (h : CtxRel P n c m id0) (hv : rho P c.ids r = some v) (hr : (m.idType r).isSome) :
    CtxRel P n { c with types := fun x => if x = v then some (toIdType nt) else c.types x }
      { m with numType := fun x => if x = r then some nt else m.numType x } id0 := by
  refine ⟨h.ids, ?_, h.imports, h.value, h.unvalued, ?_, h.dom, h.le, ?_, h.importsNe⟩
  · intro w u hw
    simp only at hw ⊢
    by_cases hwr : w = r
    · subst hwr
      rw [hv] at hw; cases hw
      simp
    · have : u ≠ v := by
        rintro rfl; exact hwr (rho_inj h.ids hw hv)
      rw [if_neg this, if_neg hwr]; exact h.types w u hw
  · intro w hw
    simp only at hw ⊢
    have hne : w ≠ r := by rintro rfl; rw [hw] at hr; cases hr
    rw [if_neg hne]; exact h.undef w hw
  · intro u hu
    simp only
    rw [if_neg (by rintro rfl; exact hu r hv)]
    exact h.range u hu

/-- The end of an instruction without a type: the values it may define have none. -/
theorem CtxRel.close {P : List Nat} {n : Nat} {c : Ctx} {m : MState} {id0 id1 : Word → Option Word}
    (h : CtxRel P n c m id0) (hm : m.idType = id1)
    (hv : ∀ w ty, id1 w = some ty → ty ≠ 0 → ty ≠ w → id0 w = some ty) :
    CtxRel P n c m id1 := by
  refine ⟨h.ids, h.types, h.imports, ?_, ?_, h.undef, h.dom, ?_, h.range, h.importsNe⟩
  · intro w v ty hw hty h0 h1
    exact h.value w v ty hw (hv w ty hty h0 h1) h0 h1
  · intro w v hw hty
    exact h.unvalued w v hw (h.le w (by rw [hm]; exact hty))
  · intro w hw; rw [← hm]; exact hw

/-- The end of an instruction with a type. -/
theorem CtxRel.putValue {P : List Nat} {n : Nat} {c : Ctx} {m : MState} {id0 id1 : Word → Option Word} {r ty v tv : Word}
    (h : CtxRel P n c m id0) (hm : m.idType = id1)
    (hr : rho P c.ids r = some v) (ht : rho P c.ids ty = some tv)
    (h1 : id1 = fun x => if x = r then some ty else id0 x) :
    CtxRel P n { c with valueTypes := fun x => if x = v then some tv else c.valueTypes x } m id1 := by
  refine ⟨h.ids, h.types, h.imports, ?_, ?_, h.undef, h.dom, ?_, ?_, h.importsNe⟩
  · intro w u ty' hw hty h0 hne
    simp only at hw ⊢
    rw [h1] at hty
    simp only at hty
    by_cases hwr : w = r
    · subst hwr
      rw [if_pos rfl] at hty; cases hty
      rw [hr] at hw; cases hw
      exact ⟨tv, ht, if_pos rfl⟩
    · rw [if_neg hwr] at hty
      rw [if_neg (by rintro rfl; exact hwr (rho_inj h.ids hw hr))]
      exact h.value w u ty' hw hty h0 hne
  · intro w u hw hty
    simp only at hw ⊢
    rw [h1] at hty
    simp only at hty
    by_cases hwr : w = r
    · rw [if_pos hwr] at hty; cases hty
    · rw [if_neg hwr] at hty
      rw [if_neg (by rintro rfl; exact hwr (rho_inj h.ids hw hr))]
      exact h.unvalued w u hw hty
  · intro w hw; rw [← hm]; exact hw
  · intro u hu
    simp only
    rw [if_neg (by rintro rfl; exact hu r hr)]
    exact h.range u hu

theorem opcodeMake_self (w : Word) : opcodeMake (Binary.wordCount w) (Binary.opcodeOf w) = w := by
  apply BitVec.eq_of_toNat_eq
  have h1 : Binary.wordCount w < 2 ^ 16 := Nat.lt_of_le_of_lt (Binary.wordCount_le w) (by decide)
  unfold opcodeMake Binary.wordCount Binary.opcodeOf
  rw [BitVec.ofNat_toNat, BitVec.ofNat_toNat, BitVec.setWidth_eq, BitVec.setWidth_eq]
  congr 1
  apply BitVec.eq_of_getLsbD_eq
  intro j hj
  simp only [BitVec.getLsbD_or, BitVec.getLsbD_and, BitVec.getLsbD_shiftLeft, BitVec.getLsbD_ushiftRight]
  by_cases hlt : j < 16
  · have : (0x0000ffff#32).getLsbD j = true := by
      revert hlt hj; generalize j = j; intro _ _
      have : j = 0 ∨ j = 1 ∨ j = 2 ∨ j = 3 ∨ j = 4 ∨ j = 5 ∨ j = 6 ∨ j = 7 ∨ j = 8 ∨ j = 9 ∨ j = 10 ∨ j = 11 ∨
        j = 12 ∨ j = 13 ∨ j = 14 ∨ j = 15 := by omega
      rcases this with rfl | rfl | rfl | rfl | rfl | rfl | rfl | rfl | rfl | rfl | rfl | rfl | rfl | rfl | rfl | rfl <;> rfl
    simp [hlt, this]
  · have h2 : (0x0000ffff#32).getLsbD j = false := by
      have : j = 16 ∨ j = 17 ∨ j = 18 ∨ j = 19 ∨ j = 20 ∨ j = 21 ∨ j = 22 ∨ j = 23 ∨ j = 24 ∨ j = 25 ∨ j = 26 ∨
        j = 27 ∨ j = 28 ∨ j = 29 ∨ j = 30 ∨ j = 31 := by omega
      rcases this with rfl | rfl | rfl | rfl | rfl | rfl | rfl | rfl | rfl | rfl | rfl | rfl | rfl | rfl | rfl | rfl <;> rfl
    have h3 : (0xffff0000#32).getLsbD j = true := by
      have : j = 16 ∨ j = 17 ∨ j = 18 ∨ j = 19 ∨ j = 20 ∨ j = 21 ∨ j = 22 ∨ j = 23 ∨ j = 24 ∨ j = 25 ∨ j = 26 ∨
        j = 27 ∨ j = 28 ∨ j = 29 ∨ j = 30 ∨ j = 31 := by omega
      rcases this with rfl | rfl | rfl | rfl | rfl | rfl | rfl | rfl | rfl | rfl | rfl | rfl | rfl | rfl | rfl | rfl <;> rfl
    have h4 : 16 + (j - 16) = j := by omega
    rw [BitVec.getLsbD_eq_getElem hj] at h2 h3
    simp [hlt, h2, h3, h4, hj]

theorem StRel.get {P : List Nat} {ws : List Word} {off op : Nat} {id0 : Word → Option Word}
    {tg : List (Bool × Word)} {st : S} {m : MState} {i : IState} (h : StRel P ws off op id0 tg st m i) {k : Nat}
    {q : Bool × Word} (hk : tg[k]? = some q) : ws[off + 1 + k]? = some q.2 := by
  obtain ⟨hlt, he⟩ := List.getElem?_eq_some_iff.1 hk
  have : ((ws.drop (off + 1)).take tg.length)[k]? = some q.2 := by
    rw [h.slice, List.getElem?_map, hk]; rfl
  rwa [List.getElem?_take_of_lt hlt, List.getElem?_drop] at this

theorem finish_rel {G : Grammar} {A : AGrammar} {N : Names} (ag : Agree G A N) {P : List Nat} {ws : List Word}
    {off op wc : Nat} {id0 : Word → Option Word} {tg tg2 : List (Bool × Word)} {st : S} {m' m2 : MState}
    {i' : IState} {d : OpDesc} {rest : List OT} (sh : Shape G d rest) (hop : d.opcode = op)
    (hst : StRel P ws off op id0 tg st m' i')
    (htg : tg = (if d.hasType then [(true, i'.typeId)] else []) ++
      (if d.hasResult then [(true, i'.resultId)] else []) ++ tg2)
    (htyp : d.hasType = false → i'.typeId = 0)
    (hidT : if d.hasResult then id0 i'.resultId = none ∧ m'.idType = fun y =>
          if y = i'.resultId then some (if G.generatesType op then i'.resultId else i'.typeId) else id0 y
        else m'.idType = id0)
    (hnum : d.hasResult = true → m'.numType i'.resultId = none)
    (hrec : Binary.recordNumberType G false ws off op wc i'.resultId m' = some m2)
    (hend : m'.idx = off + wc) (hwc : wc ≤ 65535)
    (hint : op = Binary.opTypeInt → ∃ a b, tg2 = [(false, a), (false, b)])
    (hfloat : op = Binary.opTypeFloat → (∃ a, tg2 = [(false, a)]) ∨
      ∃ a b, tg2 = [(false, a), (false, b)] ∧ (G.operand .FPENCODING b).isSome ∧
        A.fpWidthOk (A.fpEncoding b) a = true) :
    ∃ ctx', finish A d st.ctx st.inst =
        .ok (ctx', { st.inst with words := opcodeMake wc op :: tg.map (ren P st.ctx.ids) }) ∧
      ctx'.ids = st.ctx.ids ∧ CtxRel P m2.idx ctx' m2 m2.idType := by
  have hl : st.inst.words.length = wc := by rw [hst.length, hend]; omega
  have hset : st.inst.words.set 0 (opcodeMake st.inst.words.length d.opcode) =
      opcodeMake wc op :: tg.map (ren P st.ctx.ids) := by
    rw [hl, hst.words, hop]; rfl
  have hlast : ∀ c : Ctx, (if st.inst.words.length > maxWords then (R.err : R (Ctx × Asm.Inst)) else
      .ok (c, { st.inst with words := st.inst.words.set 0 (opcodeMake st.inst.words.length d.opcode) })) =
      .ok (c, { st.inst with words := opcodeMake wc op :: tg.map (ren P st.ctx.ids) }) := by
    intro c
    rw [if_neg (by rw [hl, maxWords]; omega), hset]
  obtain ⟨hmi, hmt, hmp⟩ := Binary.recordNumberType_idx hrec
  unfold finish
  simp only
  have hgen : A.generatesType st.inst.opcode = G.generatesType op := by rw [hst.opcode, ag.generatesType]
  rw [hgen]
  by_cases hg : G.generatesType op = true
  · -- a type
    rw [if_pos hg]
    obtain ⟨g1, g2⟩ := sh.generates (by rw [hop]; exact hg)
    rw [g1, g2] at htg
    simp only [Bool.false_eq_true, if_false, if_true, List.nil_append, List.cons_append] at htg
    rw [g1] at hidT
    simp only [if_true, hg] at hidT
    obtain ⟨hid0, hidT⟩ := hidT
    have hres := hnum g1
    obtain ⟨v, hv⟩ := Option.isSome_iff_exists.1 (hst.known i'.resultId (by rw [htg]; simp))
    have hw1 : st.inst.words[1]? = some v := by
      rw [hst.words, htg]; simp [ren, hv]
    have hty : st.ctx.types v = none := by rw [hst.ctx.types _ _ hv, hres]; rfl
    have hsome : (m'.idType i'.resultId).isSome := by rw [hidT]; simp
    -- the type
    have key : ∃ nt, m2 = { m' with numType := fun x => if x = i'.resultId then some nt else m'.numType x } ∧
        recordTypeDefinition A st.ctx st.inst =
          .ok { st.ctx with types := fun x => if x = v then some (toIdType nt) else st.ctx.types x } := by
      unfold Binary.recordNumberType at hrec
      rw [if_pos hg] at hrec
      unfold recordTypeDefinition
      rw [hw1]
      simp only [hty, Option.isSome_none, Bool.false_eq_true, if_false]
      rw [hst.opcode]
      by_cases hi : op = Binary.opTypeInt
      · obtain ⟨a, b, rfl⟩ := hint hi
        have e2 : ws[off + 2]? = some a := hst.get (k := 1) (q := (false, a)) (by rw [htg]; rfl)
        have e3 : ws[off + 3]? = some b := hst.get (k := 2) (q := (false, b)) (by rw [htg]; rfl)
        have hwords : st.inst.words = [0, v, a, b] := by
          rw [hst.words, htg]; simp [ren, hv]
        simp only [hi, if_true, e2, e3, Option.map_some, Option.some.injEq] at hrec
        refine ⟨_, hrec.symm, ?_⟩
        rw [if_pos hi, hwords]
        have ht : toIdType ⟨if Binary.fixW false b ≠ 0 then .signed else .unsigned, Binary.fixW false a, 0⟩ =
            ⟨a.toNat, b ≠ 0, .int, 0⟩ := by
          rw [show Binary.fixW false b = b from rfl, show Binary.fixW false a = a from rfl]
          by_cases hb : b = 0
          · rw [if_neg (by simpa using hb)]; simp [toIdType, hb]
          · rw [if_pos hb]; simpa [toIdType] using hb
        rw [ht]
      · by_cases hf : op = Binary.opTypeFloat
        · have hi' : Binary.opTypeFloat ≠ Binary.opTypeInt := by decide
          rcases hfloat hf with ⟨a, rfl⟩ | ⟨a, b, rfl, henc, hwok⟩ <;> try rw [ag.fpEncoding] at hwok
          · have e2 : ws[off + 2]? = some a := hst.get (k := 1) (q := (false, a)) (by rw [htg]; rfl)
            have hwords : st.inst.words = [0, v, a] := by
              rw [hst.words, htg]; simp [ren, hv]
            have hwc3 : ¬ wc ≥ 4 := by rw [← hl, hwords]; simp
            simp only [hf, hi', if_false, if_true, e2, hwc3, Option.map_some, Option.some.injEq] at hrec
            refine ⟨_, hrec.symm, ?_⟩
            rw [if_neg hi, if_pos hf, hwords]
            simp [toIdType, Binary.fixW]
          · have e2 : ws[off + 2]? = some a := hst.get (k := 1) (q := (false, a)) (by rw [htg]; rfl)
            have e3 : ws[off + 3]? = some b := hst.get (k := 2) (q := (false, b)) (by rw [htg]; rfl)
            have hwords : st.inst.words = [0, v, a, b] := by
              rw [hst.words, htg]; simp [ren, hv]
            have hwc4 : wc ≥ 4 := by rw [← hl, hwords]; simp
            simp only [hf, hi', if_false, if_true, e2, e3, hwc4, Option.map_some, Option.some.injEq, Binary.fixW,
              Bool.false_eq_true, henc] at hrec
            refine ⟨_, hrec.symm, ?_⟩
            rw [if_neg hi, if_pos hf, hwords]
            obtain ⟨ops, hops⟩ := Option.isSome_iff_exists.1 henc
            simp only [(ag.operand _ _ _ hops).2.1, hwok, if_true, toIdType, ag.fpEncoding]
        · simp only [hi, hf, if_false, Option.map_some, Option.some.injEq] at hrec
          refine ⟨_, hrec.symm, ?_⟩
          rw [if_neg hi, if_neg hf]
          rfl
    obtain ⟨nt, hm2, hr⟩ := key
    rw [hr]
    simp only
    rw [hlast]
    refine ⟨_, rfl, rfl, ?_⟩
    subst hm2
    refine (hst.ctx.putType (nt := nt) hv hsome).close rfl ?_
    intro w ty hw h0 hne
    simp only [hidT] at hw
    split at hw
    · rename_i hwr; cases hw; exact absurd hwr.symm hne
    · exact hw
  · rw [if_neg hg]
    have hm2 : m2 = m' := by
      unfold Binary.recordNumberType at hrec
      rw [if_neg hg] at hrec
      simp only [Option.some.injEq] at hrec
      exact hrec.symm
    subst hm2
    simp only [hg, Bool.false_eq_true, if_false] at hidT
    by_cases ht : d.hasType = true
    · have hr := sh.typed ht
      rw [ht, hr] at htg
      simp only [if_true, List.cons_append, List.nil_append] at htg
      rw [hr] at hidT
      simp only [if_true] at hidT
      obtain ⟨hid0, hidT⟩ := hidT
      obtain ⟨v, hv⟩ := Option.isSome_iff_exists.1 (hst.known i'.resultId (by rw [htg]; simp))
      obtain ⟨tv, htv⟩ := Option.isSome_iff_exists.1 (hst.known i'.typeId (by rw [htg]; simp))
      have hw1 : st.inst.words[1]? = some tv := by rw [hst.words, htg]; simp [ren, htv]
      have hw2 : st.inst.words[2]? = some v := by rw [hst.words, htg]; simp [ren, hv]
      have hnone : st.ctx.valueTypes v = none := hst.ctx.unvalued _ _ hv hid0
      simp only [ht, hr, if_true, Bool.true_eq_false, if_false, hw1, hw2, hnone, Option.isSome_none, Bool.false_eq_true]
      rw [hlast]
      exact ⟨_, rfl, rfl, hst.ctx.putValue rfl hv htv hidT⟩
    · rw [if_neg ht]
      simp only
      rw [hlast]
      refine ⟨_, rfl, rfl, hst.ctx.close rfl ?_⟩
      intro w ty hw h0 hne
      by_cases hr : d.hasResult = true
      · rw [hr] at hidT
        simp only [if_true] at hidT
        rw [hidT.2] at hw
        simp only at hw
        split at hw
        · cases hw; exact absurd (htyp (by simpa using ht)) h0
        · exact hw
      · simp only [hr, Bool.false_eq_true, if_false] at hidT
        rw [← hidT]; exact hw

end Verif.Disasm
