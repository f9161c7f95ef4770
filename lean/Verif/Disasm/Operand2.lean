import Verif.Disasm.Operand
/-!
Masks, numbers and strings.
-/
set_option linter.unusedSimpArgs false
set_option linter.unusedVariables false
namespace Verif.Disasm
open Verif.ParseNumber (Text NumberType)
open Verif.Binary (OT Grammar Pattern pushTypes takeFirst MState IState POperand NumType Eff PR isExtended
  effect parseOperand setNumericInfo maskLoop)
open Verif.Asm hiding Inst Word
open Spec

/-! ## Masks -/

theorem mask_facts {t : OT} (h : t.kind = .mask) : t.isMask = true ∧ t.recorded.isConcreteMask = true ∧
    t.recorded.isId = false ∧ t ≠ .OPTIONAL_CIV ∧ (¬ SingleName t → aKind t = .mask) ∧
    (SingleName t → aKind t = .enum ∧ t.recorded = t) := by
  unfold SingleName
  revert h; cases t <;> decide

theorem emit_mask {G : Grammar} {N : Names} {t : OT} (h : t.kind = .mask) {x : Binary.Inst}
    {o : POperand} (ho : o.type = t.recorded) {w : Word} (hw : x.words[o.offset]? = some w) :
    emitOperand G N x o = emitMask N t.recorded w := by
  unfold emitOperand
  rw [hw, ho]
  revert h
  cases t <;> intro h <;> first | (exfalso; revert h; decide) | rfl

theorem bit_shift {j k : Nat} (hj : j < 32) (hk : k < 32) : (1#32 <<< k).getLsbD j = decide (j = k) := by
  rw [BitVec.getLsbD_shiftLeft]
  by_cases h : j = k
  · subst h; simp [hj]
  · by_cases hlt : j < k
    · simp [hlt, h]
    · have : BitVec.getLsbD 1#32 (j - k) = false := by simp; omega
      simp [this, h]

theorem bit_ne_zero {k : Nat} (hk : k < 32) : (1#32 <<< k) ≠ 0 := by
  intro h
  have := bit_shift hk hk
  rw [h] at this
  simp at this

theorem maskNames_bit {N : Names} {r : OT} {k : Nat} (hk : k < 32) : ∀ (n j : Nat), j ≤ k → k < j + n → j + n = 32 →
    maskNames N r n j (1#32 <<< k) false = N.operand r (1#32 <<< k) := by
  intro n
  induction n with
  | zero => intro j h1 h2; omega
  | succ n ih =>
    intro j h1 h2 h3
    rw [maskNames, if_neg (bit_ne_zero hk)]
    simp only
    by_cases hjk : j = k
    · subst hjk
      rw [if_pos ((Binary.and_bit _ j (by omega)).mpr (by rw [bit_shift hk hk]; simp))]
      have : ∀ n k', maskNames N r n k' 0 true = some [] := by
        intro n k'; cases n <;> simp [maskNames]
      simp only [BitVec.xor_self, Bool.false_eq_true, if_false]
      have h0 : maskNames N r n (j + 1) 0#32 true = some [] := this n (j + 1)
      rw [h0]
      cases N.operand r (1#32 <<< j) <;> simp
    · rw [if_neg (fun hc => by
        have := (Binary.and_bit _ j (by omega)).mp hc
        rw [bit_shift (by omega) hk] at this
        exact hjk (by simpa using this))]
      exact ih (j + 1) (by omega) (by omega) (by omega)

theorem maskLoop_bit {G : Grammar} {t : OT} {k : Nat} (hk : k < 32) (p : Pattern) : ∀ n, k < n → n ≤ 32 →
    maskLoop G t false n (1#32 <<< k) p =
      match G.operand t (1#32 <<< k) with
      | none => .err Binary.cInvalidBinary
      | some ops => .ok (pushTypes ops p) := by
  intro n
  induction n with
  | zero => intro h; omega
  | succ n ih =>
    intro h1 h2
    rw [maskLoop, if_neg (bit_ne_zero hk)]
    simp only
    by_cases hnk : n = k
    · subst hnk
      rw [if_pos ((Binary.and_bit _ n (by omega)).mpr (by rw [bit_shift hk hk]; simp))]
      simp only [BitVec.xor_self, Bool.false_eq_true, if_false]
      have h0 : ∀ q, maskLoop G t false n 0#32 q = .ok q := by
        intro q; cases n <;> simp [maskLoop]
      cases G.operand t (1#32 <<< n) <;> simp [h0]
    · rw [if_neg (fun hc => by
        have := (Binary.and_bit _ n (by omega)).mp hc
        rw [bit_shift (by omega) hk] at this
        exact hnk (by simpa using this))]
      exact ih (by omega) (by omega)

theorem maskLoop_zero {G : Grammar} {t : OT} {unk : Bool} (n : Nat) (p : Pattern) : maskLoop G t unk n 0#32 p = .ok p := by
  cases n <;> simp [maskLoop]

theorem maskOperands_entry {f g : Nat → Option (List OT)} {mask : Word} (k : Nat)
    (h : ∀ b, b < k → mask.getLsbD b = true → f b = g b) :
    Binary.Spec.maskOperands f mask k = Binary.Spec.maskOperands g mask k := by
  induction k with
  | zero => rfl
  | succ k ih =>
    have h1 := ih (fun b hb => h b (by omega))
    unfold Binary.Spec.maskOperands at h1 ⊢
    rw [List.range_succ, List.flatMap_append, List.flatMap_append, h1]
    simp only [List.flatMap_cons, List.flatMap_nil, List.append_nil]
    congr 1
    split
    · rename_i hb; rw [h k (by omega) hb]
    · rfl

theorem mask_step {G : Grammar} {A : AGrammar} {N : Names} (ag : Agree G A N) {P : List Nat} {ws : List Word}
    {off op wc : Nat} {id0 : Word → Option Word} {tg : List (Bool × Word)} {st : S} {m : MState} {i : IState} {t : OT}
    {x : Binary.Inst} {p : Pattern} {raw : Word} {e : Eff} {ops0 cv : List _}
    (h : StRel P ws off op id0 tg st m i) (hk : t.kind = .mask)
    (hraw : ws[m.idx]? = some raw)
    (he : effect G false false ws off op t raw m { i with expected := p } = .ok e)
    (hpos : Pos ws off wc x m.idx e.nwords)
    (hsingle : SingleName t → ∀ d, A.opcodeByNumber x.opcode = some d → t ∈ d.operands)
    (hok : OperandOk A N x ⟨(m.idx - off) % 65536, e.nwords, t.recorded, e.nkind, e.width, e.enc⟩) :
    StepOk G A N P ws off op id0 tg t x ⟨(m.idx - off) % 65536, e.nwords, t.recorded, e.nkind, e.width, e.enc⟩
      { st with expected := p } { e.m with idx := m.idx + e.nwords }
      { e.i with operands := ops0, conv := cv } := by
  obtain ⟨f1, f2, f3, f4, f5, f6⟩ := mask_facts hk
  unfold effect at he
  simp only [hk] at he
  have hword : e.nwords = 1 → x.words[(m.idx - off) % 65536]? = some raw := by
    intro h1; rw [hpos.word (by omega), hraw]
  split at he
  · rename_i q hq
    by_cases h0 : raw = 0
    · subst h0
      rw [show (0 : Word) = 0#32 from rfl, maskLoop_zero] at hq
      simp only [PR.ok.injEq] at hq
      subst hq
      have hn1 : e.nwords = 1 := by
        simp only [if_true] at he
        split at he <;> (simp only [PR.ok.injEq] at he; subst he; rfl)
      obtain ⟨name, hname⟩ := Option.isSome_iff_exists.1 (hok.mask f2 (hword hn1))
      simp only at hname
      have hz := ag.zero t name f1 hname
      obtain ⟨-, -, name', hn2, hn3, hn4⟩ := ag.operand _ _ _ hz
      rw [hname] at hn2; cases hn2
      simp only [if_true, hz, PR.ok.injEq] at he
      subst he
      refine lit_step (tok := name) h ?_ (solid_name hn3) f3 f4 ?_ hpos.len rfl ⟨rfl, rfl, rfl⟩
      · rw [emit_mask hk rfl (hword rfl)]
        unfold emitMask
        rw [if_pos rfl, hname]; rfl
      · by_cases hs : SingleName t
        · unfold encodeBasic
          simp only [(f6 hs).1, hn4, take_one_word hraw]
        · unfold encodeBasic
          have hne : name ≠ [] := (valid_chars hn3.1).1
          simp only [f5 hs, parseMask, if_neg hne, parseMaskLoop_one hn3 hn4, take_one_word hraw, pushMask_eq _ _ _ _ _ (Nat.le_refl _)]
          have : (0 : Word) ||| 0 = 0 := rfl
          rw [this]
          have : Binary.Spec.maskOperands (fun b => A.operandByValue t (1#32 <<< b)) (0 : Word) 32 = [] :=
            Binary.maskOperands_zero (fun b => A.operandByValue t (1#32 <<< b)) 32
          rw [this]; rfl
    · simp only [if_neg h0, PR.ok.injEq] at he
      subst he
      have hwd := hword rfl
      by_cases hs : SingleName t
      · obtain ⟨k, hk32, rfl⟩ := (hok.single (by rw [(f6 hs).2]; exact hs)
          (by rw [(f6 hs).2]; exact hsingle hs) raw hwd).resolve_left h0
        rw [maskLoop_bit hk32 _ 32 hk32 (Nat.le_refl _)] at hq
        split at hq
        · cases hq
        · rename_i ops hops
          simp only [PR.ok.injEq] at hq
          subst hq
          obtain ⟨-, -, name, hn1, hn2, hn3⟩ := ag.operand _ _ _ hops
          refine lit_step (tok := name) h ?_ (solid_name hn2) f3 f4 ?_ hpos.len rfl ⟨rfl, rfl, rfl⟩
          · rw [emit_mask hk rfl hwd]
            unfold emitMask
            rw [if_neg h0, maskNames_bit hk32 32 0 (by omega) (by omega) (by omega), hn1]
          · unfold encodeBasic
            simp only [(f6 hs).1, hn3, take_one_word hraw]
      · obtain ⟨hq1, hq2⟩ := Binary.maskLoop_eq G t false 32 raw p q (Nat.le_refl _) hq
        have hbn : BitNames A N t t.recorded raw := by
          intro b hb hbit
          obtain ⟨ops, hops⟩ := Option.isSome_iff_exists.1 (hq2 b hb hbit)
          obtain ⟨-, -, name, hn1, hn2, hn3⟩ := ag.operand _ _ _ hops
          exact ⟨name, ops, hn1, hn2, hn3⟩
        obtain ⟨name, T, t1, t2, t3, t4, t5⟩ := maskNames_false 32 0 raw (by omega) h0 (by omega) hbn
        refine lit_step (tok := name ++ T) h ?_ (solid_mask t2 t3 t4) f3 f4 ?_ hpos.len rfl ⟨rfl, rfl, rfl⟩
        · rw [emit_mask hk rfl hwd]
          unfold emitMask
          rw [if_neg h0, t1]
        · unfold encodeBasic
          have hne : name ++ T ≠ [] := by
            have := (valid_chars t2.1).1
            simp [this]
          simp only [f5 hs, parseMask, if_neg hne, t5, take_one_word hraw, pushMask_eq _ _ _ _ _ (Nat.le_refl _)]
          have : (0 : Word) ||| raw = raw := by simp
          rw [this, hq1]
          congr 3
          apply maskOperands_entry
          intro b hb hbit
          obtain ⟨ops, hops⟩ := Option.isSome_iff_exists.1 (hq2 b hb hbit)
          obtain ⟨-, hv, -⟩ := ag.operand _ _ _ hops
          simp only [hv, hops]
  · cases he
  · cases he
  · cases he

/-! ## Numbers -/

theorem num_recorded {t : OT} (h : t.kind = .litInt ∨ t.kind = .litFloat ∨ t.kind = .typedLit) :
    NumOT t.recorded ∧ t.recorded.isId = false ∧ t ≠ .OPTIONAL_CIV := by
  unfold NumOT
  revert h; cases t <;> decide

theorem emit_num {G : Grammar} {N : Names} {x : Binary.Inst} {o : POperand} (ho : NumOT o.type)
    (hw : (x.words[o.offset]?).isSome) : emitOperand G N x o = emitNumeric N x o := by
  obtain ⟨w, hw⟩ := Option.isSome_iff_exists.1 hw
  unfold emitOperand
  rw [hw]
  rcases ho with h | h | h <;> simp only [h]

/-- A number of a type both sides know. -/
theorem number_step {G : Grammar} {A : AGrammar} {N : Names} {P : List Nat} {ws : List Word} {off op wc : Nat}
    {id0 : Word → Option Word} {tg : List (Bool × Word)} {st : S} {m m1 : MState} {i i1 : IState} {t : OT}
    {x : Binary.Inst} {o : POperand} {p : Pattern} {nt : NumType} {raw : Word}
    (h : StRel P ws off op id0 tg st m i) (hk : t.kind = .litInt ∨ t.kind = .litFloat ∨ t.kind = .typedLit)
    (hraw : ws[m.idx]? = some raw)
    (ho : o.offset = (m.idx - off) % 65536) (hot : o.type = t.recorded)
    (hpos : Pos ws off wc x m.idx o.nwords) (hok : OperandOk A N x o)
    (hnt : o.nkind = nt.kind ∧ o.width = nt.width ∧ o.enc = nt.enc) (hnone : nt.kind ≠ .none)
    (hnw : o.nwords = ((nt.width + 31#32).toNat / 32) % 65536)
    (henc : ∀ tok, encodeBasic A P t tok { st with expected := p } =
      encodeNum A t tok (toIdType nt) { st with expected := p })
    (hm1 : m1 = { m with idx := m.idx + o.nwords })
    (hi : i1.typeId = i.typeId ∧ i1.extType = i.extType ∧ i1.expected = p) :
    StepOk G A N P ws off op id0 tg t x o { st with expected := p } m1 i1 := by
  obtain ⟨k1, k2, k3⟩ := num_recorded hk
  rw [← hot] at k1 k2
  have hne := hok.nonempty
  have hws : operandWords x o = (ws.drop m.idx).take o.nwords := by
    unfold operandWords; rw [ho]; exact hpos.words hne
  have hsome : (x.words[o.offset]?).isSome := by rw [ho, hpos.word hne, hraw]; rfl
  obtain ⟨n1, n2, n3⟩ := hnt
  cases hkind : nt.kind with
  | none => exact absurd hkind hnone
  | floating =>
    rw [hkind] at n1
    obtain ⟨fl, fok⟩ := hok.float n1
    have hxl : o.offset + o.nwords ≤ x.words.length := by
      rw [ho, hpos.offset hne, hpos.xw]
      have := hpos.lo; have := hpos.hi; have := hpos.len
      simp; omega
    refine lit_step h (by rw [emit_num k1 hsome]; exact emitNumeric_float k1 n1 hne fl hxl) (float_solid fok) k2 k3
      ?_ hpos.len hm1 hi
    rw [henc]
    unfold encodeNum
    have : toIdType nt = ⟨o.width.toNat, false, .float, o.enc⟩ := by
      unfold toIdType; rw [hkind, n2, n3]
    rw [this, encodeNumeric_float fok, hws]
  | unsigned =>
    rw [hkind] at n1
    have hc := hok.integer (.inl n1)
    have hwn : o.nwords = if o.width.toNat ≤ 32 then 1 else 2 := by
      obtain ⟨c1, c2, -⟩ := hc
      rw [hnw, ← n2, BitVec.toNat_add]
      simp only [BitVec.toNat_ofNat, Nat.reducePow, Nat.reduceMod]
      split <;> omega
    obtain ⟨v, v1, v2, v3⟩ := emitNumeric_int k1 (.inl n1) hwn hc
    refine lit_step h (by rw [emit_num k1 hsome]; exact v3) (decInt_solid v) k2 k3 ?_ hpos.len hm1 hi
    rw [henc]
    unfold encodeNum
    have : toIdType nt = ⟨o.width.toNat, decide (o.nkind = .signed), .int, 0⟩ := by
      unfold toIdType; rw [hkind, n2, n1]; rfl
    rw [this, encodeNumeric_int hc.1 hc.2.1 v1, ← v2, hws]
  | signed =>
    rw [hkind] at n1
    have hc := hok.integer (.inr n1)
    have hwn : o.nwords = if o.width.toNat ≤ 32 then 1 else 2 := by
      obtain ⟨c1, c2, -⟩ := hc
      rw [hnw, ← n2, BitVec.toNat_add]
      simp only [BitVec.toNat_ofNat, Nat.reducePow, Nat.reduceMod]
      split <;> omega
    obtain ⟨v, v1, v2, v3⟩ := emitNumeric_int k1 (.inr n1) hwn hc
    refine lit_step h (by rw [emit_num k1 hsome]; exact v3) (decInt_solid v) k2 k3 ?_ hpos.len hm1 hi
    rw [henc]
    unfold encodeNum
    have : toIdType nt = ⟨o.width.toNat, decide (o.nkind = .signed), .int, 0⟩ := by
      unfold toIdType; rw [hkind, n2, n1]; rfl
    rw [this, encodeNumeric_int hc.1 hc.2.1 v1, ← v2, hws]

theorem setNumericInfo_inv {ty : Word} {m : MState} {i : IState} {e : Eff} (h : setNumericInfo ty m i = .ok e) :
    ty ≠ 0 ∧ ∃ nt, m.numType ty = some nt ∧ nt.kind ≠ .none ∧
      e = ⟨((nt.width + 31#32).toNat / 32) % 65536, nt.kind, nt.width, nt.enc, m, i⟩ := by
  unfold setNumericInfo at h
  split at h
  · cases h
  · rename_i h0
    split at h
    · cases h
    · rename_i nt hnt
      split at h
      · cases h
      · rename_i hk
        simp only [PR.ok.injEq] at h
        exact ⟨h0, nt, hnt, hk, h.symm⟩

theorem lit_number_step {G : Grammar} {A : AGrammar} {N : Names} {P : List Nat} {ws : List Word}
    {off op wc : Nat} {id0 : Word → Option Word} {tg : List (Bool × Word)} {st : S} {m : MState} {i : IState} {t : OT}
    {x : Binary.Inst} {p : Pattern} {raw : Word} {e : Eff} {ops0 cv : List _}
    (h : StRel P ws off op id0 tg st m i) (hk : t.kind = .litInt ∨ t.kind = .litFloat)
    (hraw : ws[m.idx]? = some raw)
    (he : effect G false false ws off op t raw m { i with expected := p } = .ok e)
    (hpos : Pos ws off wc x m.idx e.nwords)
    (hok : OperandOk A N x ⟨(m.idx - off) % 65536, e.nwords, t.recorded, e.nkind, e.width, e.enc⟩) :
    StepOk G A N P ws off op id0 tg t x ⟨(m.idx - off) % 65536, e.nwords, t.recorded, e.nkind, e.width, e.enc⟩
      { st with expected := p } { e.m with idx := m.idx + e.nwords }
      { e.i with operands := ops0, conv := cv } := by
  rcases hk with hk | hk
  · have he' : (PR.ok ⟨1, .unsigned, 32#32, 0, m, { i with expected := p }⟩ : PR Eff) = .ok e := by
      unfold effect at he; simp only [hk] at he; exact he
    simp only [PR.ok.injEq] at he'
    subst he'
    refine number_step (nt := ⟨.unsigned, 32#32, 0⟩) h (.inl hk) hraw rfl rfl hpos hok ⟨rfl, rfl, rfl⟩ (by simp) (by show 1 = _; decide)
      ?_ rfl ⟨rfl, rfl, rfl⟩
    intro tok
    rcases kind_int hk with rfl | rfl <;> rfl
  · have he' : (PR.ok ⟨1, .floating, 32#32, 0, m, { i with expected := p }⟩ : PR Eff) = .ok e := by
      unfold effect at he; simp only [hk] at he; exact he
    simp only [PR.ok.injEq] at he'
    subst he'
    refine number_step (nt := ⟨.floating, 32#32, 0⟩) h (.inr (.inl hk)) hraw rfl rfl hpos hok ⟨rfl, rfl, rfl⟩ (by simp)
      (by show 1 = _; decide) ?_ rfl ⟨rfl, rfl, rfl⟩
    intro tok
    rw [kind_float hk]; rfl

theorem typed_step {G : Grammar} {A : AGrammar} {N : Names} {P : List Nat} {ws : List Word}
    {off op wc : Nat} {id0 : Word → Option Word} {tg : List (Bool × Word)} {st : S} {m : MState} {i : IState} {t : OT}
    {x : Binary.Inst} {p : Pattern} {raw : Word} {e : Eff} {ops0 cv : List _}
    (h : StRel P ws off op id0 tg st m i) (hk : t.kind = .typedLit)
    (hraw : ws[m.idx]? = some raw)
    (he : effect G false false ws off op t raw m { i with expected := p } = .ok e)
    (hpos : Pos ws off wc x m.idx e.nwords)
    (hsw : op = Binary.opSwitch → (∃ w, tg[0]? = some (true, w)) ∧ m.idType = id0)
    (hok : OperandOk A N x ⟨(m.idx - off) % 65536, e.nwords, t.recorded, e.nkind, e.width, e.enc⟩) :
    StepOk G A N P ws off op id0 tg t x ⟨(m.idx - off) % 65536, e.nwords, t.recorded, e.nkind, e.width, e.enc⟩
      { st with expected := p } { e.m with idx := m.idx + e.nwords }
      { e.i with operands := ops0, conv := cv } := by
  have hkind : aKind t = .typedLit := by rcases kind_typed hk with rfl | rfl <;> rfl
  unfold effect at he
  simp only [hk] at he
  split at he
  · rename_i hop
    obtain ⟨⟨w, hw⟩, hid⟩ := hsw hop
    split at he
    · cases he
    rename_i sel hsel
    simp only [Binary.fixW, Bool.false_eq_true, if_false] at he
    split at he
    · cases he
    rename_i ty hty
    split at he
    · cases he
    rename_i h0
    split at he
    · cases he
    rename_i hne
    split at he
    · rename_i e' hset
      split at he
      · cases he
      rename_i hint
      simp only [PR.ok.injEq] at he
      subst he
      obtain ⟨-, nt, hnt, hnk, rfl⟩ := setNumericInfo_inv hset
      have hwsel : w = sel := by
        have h1 : (tg.map (·.2))[0]? = some w := by rw [List.getElem?_map, hw]; rfl
        have hlen : 0 < tg.length := by
          cases tg with
          | nil => cases hw
          | cons _ _ => simp
        rw [← h.slice, List.getElem?_take_of_lt hlen, List.getElem?_drop] at h1
        rw [show off + 1 + 0 = off + 1 by omega, hsel] at h1
        exact (Option.some.inj h1).symm
      subst hwsel
      obtain ⟨v, hv⟩ := Option.isSome_iff_exists.1 (h.known w (List.mem_of_getElem? hw))
      have hw1 : st.inst.words[1]? = some v := by
        rw [h.words, List.getElem?_cons_succ, List.getElem?_map, hw]
        simp [ren, hv]
      obtain ⟨tv, ht1, ht2⟩ := h.ctx.value w v ty hv (by rw [← hid]; exact hty) h0 (fun hc => hne hc.symm)
      have htt := h.ctx.types ty tv ht1
      rw [hnt] at htt
      refine number_step (nt := nt) h (.inr (.inr hk)) hraw rfl rfl hpos hok ⟨rfl, rfl, rfl⟩ hnk rfl
        ?_ rfl ⟨rfl, rfl, rfl⟩
      intro tok
      unfold encodeBasic
      rw [hkind]
      simp only
      unfold encodeTyped
      have hop' : st.inst.opcode = Binary.opSwitch := by rw [h.opcode, hop]
      simp only [hop']
      rw [if_neg (by decide), if_pos trivial, hw1]
      simp only [typeOfValue, ht2, typeOfType, htt, Option.map_some, Option.getD_some]
      rw [if_pos]
      unfold toIdType
      simp only at hint
      cases hkk : nt.kind <;> simp_all
    · rename_i r hr; exact absurd he (hr e)
  · rename_i hnsw
    split at he
    · cases he
    rename_i hop
    obtain ⟨h0, nt, hnt, hnk, rfl⟩ := setNumericInfo_inv he
    have hrho := h.typeId h0
    have htt := h.ctx.types _ _ hrho
    rw [show m.numType i.typeId = some nt from hnt] at htt
    refine number_step (nt := nt) h (.inr (.inr hk)) hraw rfl rfl hpos hok ⟨rfl, rfl, rfl⟩ hnk rfl
      ?_ rfl ⟨rfl, rfl, rfl⟩
    intro tok
    unfold encodeBasic
    rw [hkind]
    simp only
    unfold encodeTyped
    have hop' : st.inst.opcode = Binary.opConstant ∨ st.inst.opcode = Binary.opSpecConstant := by
      rw [h.opcode]
      by_cases h1 : op = Binary.opConstant
      · exact .inl h1
      · by_cases h2 : op = Binary.opSpecConstant
        · exact .inr h2
        · exact absurd ⟨h1, h2⟩ hop
    simp only
    rw [if_pos hop']
    simp only [typeOfType, htt, Option.map_some, Option.getD_some]
    rw [if_pos]
    unfold toIdType
    cases hkk : nt.kind <;> simp_all

/-! ## Strings -/

theorem makeString_nul (l : List Word) : 0#8 ∉ (StringLit.makeString l).str := by
  rw [StringLit.makeString_spec]
  split
  · intro hc
    simpa using (List.all_eq_true.1 (List.all_takeWhile (p := fun b : BitVec 8 => decide (b ≠ 0))) _ hc)
  · assumption

theorem str_step {G : Grammar} {A : AGrammar} {N : Names} (ag : Agree G A N) {P : List Nat} {ws : List Word}
    {off op wc : Nat} {id0 : Word → Option Word} {tg : List (Bool × Word)} {st : S} {m : MState} {i : IState} {t : OT}
    {x : Binary.Inst} {p : Pattern} {raw : Word} {e : Eff} {ops0 cv : List _}
    (h : StRel P ws off op id0 tg st m i) (hk : t.kind = .str)
    (hraw : ws[m.idx]? = some raw)
    (he : effect G false false ws off op t raw m { i with expected := p } = .ok e)
    (hpos : Pos ws off wc x m.idx e.nwords)
    (himp : op = Binary.opExtInstImport → m.imports i.resultId = none ∧ tg[0]? = some (true, i.resultId))
    (hdef : op = Binary.opExtInstImport → (m.idType i.resultId).isSome)
    (hok : OperandOk A N x ⟨(m.idx - off) % 65536, e.nwords, t.recorded, e.nkind, e.width, e.enc⟩) :
    StepOk G A N P ws off op id0 tg t x ⟨(m.idx - off) % 65536, e.nwords, t.recorded, e.nkind, e.width, e.enc⟩
      { st with expected := p } { e.m with idx := m.idx + e.nwords }
      { e.i with operands := ops0, conv := cv } := by
  have hkind : aKind t = .str ∧ t.recorded = .LITERAL_STRING ∧ t ≠ .OPTIONAL_CIV := by
    rcases kind_str hk with rfl | rfl <;> decide
  obtain ⟨k1, k2, k3⟩ := hkind
  have hne := hok.nonempty
  simp only at hne
  have hws : operandWords x ⟨(m.idx - off) % 65536, e.nwords, t.recorded, e.nkind, e.width, e.enc⟩ =
      (ws.drop m.idx).take e.nwords := hpos.words hne
  have hstr := hok.string k2
  rw [hws] at hstr
  generalize hs : (StringLit.makeString ((ws.drop m.idx).take e.nwords)).str = s at hstr
  have hnul : 0#8 ∉ s := hs ▸ makeString_nul _
  have hdrop : ws.drop m.idx = StringLit.makeVector s ++ (ws.drop m.idx).drop e.nwords := by
    rw [← hstr, List.take_append_drop]
  have hfound : StringLit.makeString (ws.drop m.idx) = .found s := by
    rw [hdrop]; exact StringLit.makeString_makeVector s hnul _
  have hfound' : StringLit.makeString ((ws.drop m.idx).take e.nwords) = .found s := by
    rw [hstr]
    have := StringLit.makeString_makeVector s hnul []
    rwa [List.append_nil] at this
  have hlen : (StringLit.makeVector s).length = e.nwords := by
    rw [← hstr]
    have := hpos.len
    simp; omega
  have hvl : (StringLit.makeVector s).length = s.length / 4 + 1 := (StringLit.makeVector_represents s).1
  have hsl : s.length ≤ 65535 * 4 := by
    have := hpos.hi; have := hpos.wc; have := hpos.lo
    omega
  have hfit : st.inst.words.length + (StringLit.makeVector s).length ≤ 65535 := by
    rw [h.length]
    have := hpos.hi; have := hpos.wc; have := hpos.lo
    omega
  have hq : textToLiteral (quote (s.map charOf)) = .str (s.map charOf) :=
    textToLiteral_quote _ (by simpa [maxStringBytes] using hsl)
  have henc : encodeString (s.map charOf) st.inst = .ok (st.inst.add ((ws.drop m.idx).take e.nwords)) := by
    unfold encodeString
    rw [map_byteOf_charOf, List.length_map, if_neg (by unfold maxWords; omega), appendToVector_eq_append, hstr]
    rfl
  have hsolid : Solid (quote (s.map charOf)) := by
    apply solid_quote
    intro hc
    obtain ⟨b, hb, heq⟩ := List.mem_map.mp hc
    exact charOf_ne_nul (fun h0 => hnul (by rw [h0] at hb; exact hb)) heq
  have hemit : ∀ o : POperand, o.offset = (m.idx - off) % 65536 → o.nwords = e.nwords → o.type = t.recorded →
      emitOperand G N x o = some (quote (s.map charOf)) := by
    intro o o1 o2 o3
    unfold emitOperand
    rw [o1, hpos.word hne, hraw, o3, k2]
    simp only
    unfold emitString
    rw [o1, o2, hpos.words hne, hfound']
  unfold effect at he
  simp only [hk] at he
  have hfs : (StringLit.makeString (ws.drop m.idx)).str = s := by rw [hfound]; rfl
  rw [hfs] at he
  by_cases c1 : s.length = (ws.length - m.idx) * 4
  · rw [if_pos c1] at he; cases he
  rw [if_neg c1] at he
  by_cases c2 : s.length / 4 + 1 > 65535
  · rw [if_pos c2] at he; cases he
  rw [if_neg c2] at he
  by_cases hop : op = Binary.opExtInstImport
  · rw [if_pos hop] at he
    by_cases hext : G.extImport s = 0
    · rw [if_pos hext] at he; cases he
    rw [if_neg hext] at he
    by_cases c3 : i.resultId = 0
    · rw [if_pos c3] at he; cases he
    rw [if_neg c3] at he
    simp only [PR.ok.injEq] at he
    obtain ⟨hi1, hi2⟩ := himp hop
    have hwm : (true, i.resultId) ∈ tg := List.mem_of_getElem? hi2
    obtain ⟨v, hv⟩ := Option.isSome_iff_exists.1 (h.known _ hwm)
    have hw1 : st.inst.words[1]? = some v := by
      rw [h.words, List.getElem?_cons_succ, List.getElem?_map, hi2]
      simp [ren, hv]
    have himv : st.ctx.imports v = none := by rw [h.ctx.imports _ _ hv, hi1]
    have hb : encodeBasic A P t (quote (s.map charOf)) { st with expected := p } =
        .ok { st with
          inst := st.inst.add ((ws.drop m.idx).take e.nwords)
          expected := p
          ctx := { st.ctx with imports := fun x => if x = v then some (G.extImport s) else st.ctx.imports x } } := by
      unfold encodeBasic
      rw [k1]
      simp only
      unfold encodeStr
      simp only [hq, h.opcode, if_pos hop, ag.extImport, hext, if_false, hw1, himv, Option.isSome_none,
        Bool.false_eq_true, henc]
    refine ⟨_, _, { st with
          inst := st.inst.add ((ws.drop m.idx).take e.nwords)
          expected := p
          ctx := { st.ctx with imports := fun x => if x = v then some (G.extImport s) else st.ctx.imports x } },
      hemit _ rfl rfl rfl, hsolid, by rw [encodeOperand_basic hsolid k3]; exact hb,
      h.lit (n := e.nwords) rfl hpos.len ?_ rfl rfl rfl ?_ ?_ rfl ?_ rfl, Le.refl _ _, ?_, ?_⟩
    · subst he
      simp only
      constructor
      · exact h.ctx.ids
      · exact h.ctx.types
      · intro a u hau
        simp only
        by_cases hau' : a = i.resultId
        · subst hau'
          rw [hv] at hau; cases hau
          simp
        · have : u ≠ v := fun hc => hau' (rho_inj h.ctx.ids hau (hc ▸ hv))
          rw [if_neg this, if_neg hau']
          exact h.ctx.imports a u hau
      · exact h.ctx.value
      · exact h.ctx.unvalued
      · intro a ha
        simp only at ha ⊢
        have : a ≠ i.resultId := by
          rintro rfl
          have := hdef hop
          rw [ha] at this; cases this
        rw [if_neg this]
        exact h.ctx.undef a ha
      · exact h.ctx.dom
      · exact h.ctx.le
      · intro u hu
        have : u ≠ v := by rintro rfl; exact hu _ hv
        simp only [if_neg this]
        exact h.ctx.range u hu
      · intro a b hab
        simp only at hab
        split at hab
        · cases hab; exact hext
        · exact h.ctx.importsNe a b hab
    · subst he; exact h.ext
    · subst he; rfl
    · subst he; rfl
    · intro hc; simp only [k2] at hc; cases hc
    · intro _ w hw
      obtain ⟨a, -, ha⟩ := List.mem_map.mp hw; cases ha
  · rw [if_neg hop] at he
    simp only [PR.ok.injEq] at he
    refine lit_step (tok := quote (s.map charOf)) (n := e.nwords) h (hemit _ rfl rfl rfl) hsolid (by rw [k2]; rfl) k3
      ?_ hpos.len (by subst he; rfl) (by subst he; exact ⟨rfl, rfl, rfl⟩)
    unfold encodeBasic
    rw [k1]
    simp only
    unfold encodeStr
    simp only [hq, h.opcode, if_neg hop, henc]

end Verif.Disasm
