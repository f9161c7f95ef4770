import Verif.Disasm.Operand2
/-!
The operands of an instruction.
-/
set_option linter.unusedSimpArgs false
set_option linter.unusedVariables false
namespace Verif.Disasm
open Verif.ParseNumber (Text NumberType)
open Verif.Binary (OT Grammar Pattern pushTypes takeFirst MState IState POperand NumType Eff PR isExtended
  effect parseOperand setNumericInfo maskLoop)
open Verif.Asm hiding Inst Word
open Verif.Asm.Spec (Separated)
open Spec

/-- Types which may be expected. -/
def Ok (d : OpDesc) (t : OT) : Prop := Inner t ∧ (SingleName t → t ∈ d.operands)

theorem ok_of {d : OpDesc} {t : OT} (h : Inner t ∧ ¬ SingleName t) : Ok d t := ⟨h.1, fun hc => absurd hc h.2⟩

theorem ok_fixed (d : OpDesc) {t : OT} (h : t = .OPTIONAL_ID ∨ t = .OPTIONAL_LITERAL_INTEGER ∨
    t = .OPTIONAL_TYPED_LITERAL_INTEGER ∨ t = .OPTIONAL_CAPABILITY ∨ t = .ID ∨ t = .LITERAL_INTEGER ∨
    t = .VARIABLE_ID) : Ok d t := by
  apply ok_of
  unfold Inner SingleName
  rcases h with rfl | rfl | rfl | rfl | rfl | rfl | rfl <;> decide

theorem takeFirst_ok {d : OpDesc} {q p : Pattern} {t : OT} (h : takeFirst q = some (t, p)) (hq : ∀ u ∈ q, Ok d u) :
    Ok d t ∧ ∀ u ∈ p, Ok d u := by
  cases q with
  | nil => cases h
  | cons a q =>
    have ha := hq a (by simp)
    have hq' : ∀ u ∈ q, Ok d u := fun u hu => hq u (by simp [hu])
    simp only [takeFirst] at h
    cases he : Binary.expandOnce a q with
    | none =>
      rw [he] at h
      simp only [Option.some.injEq, Prod.mk.injEq] at h
      obtain ⟨rfl, rfl⟩ := h
      exact ⟨ha, hq'⟩
    | some l =>
      rw [he] at h
      cases l with
      | nil => cases h
      | cons b l =>
        simp only [Option.some.injEq, Prod.mk.injEq] at h
        obtain ⟨rfl, rfl⟩ := h
        cases a <;> simp only [Binary.expandOnce, reduceCtorEq, Option.some.injEq, List.cons.injEq] at he <;>
          obtain ⟨rfl, rfl⟩ := he <;> refine ⟨ok_fixed d (by simp), ?_⟩ <;>
          intro u hu <;> simp only [List.mem_cons] at hu
        · rcases hu with rfl | hu
          · exact ha
          · exact hq' u hu
        · rcases hu with rfl | hu
          · exact ha
          · exact hq' u hu
        · rcases hu with rfl | rfl | hu
          · exact ok_fixed d (by simp)
          · exact ha
          · exact hq' u hu
        · rcases hu with rfl | rfl | hu
          · exact ok_fixed d (by simp)
          · exact ha
          · exact hq' u hu
        · rcases hu with rfl | hu
          · exact ha
          · exact hq' u hu

theorem ok_push {d : OpDesc} {ops : List OT} {p : Pattern} (h : ∀ x ∈ ops, Inner x ∧ ¬ SingleName x)
    (hp : ∀ u ∈ p, Ok d u) : ∀ u ∈ pushTypes ops p, Ok d u := by
  intro u hu
  rcases List.mem_append.mp hu with hu | hu
  · exact ok_of (h u (List.mem_filter.1 hu).1)
  · exact hp u hu

/-- The operands which follow an operand. -/
theorem effect_ok_expected {G : Grammar} {A : AGrammar} {N : Names} (ag : Agree G A N) {d : OpDesc} {ws : List Word}
    {off op : Nat} {t : OT} {word : Word} {m : MState} {i : IState} {e : Eff}
    (h : effect G false false ws off op t word m i = .ok e)
    (hspec : t = .SPEC_CONSTANT_OP_NUMBER → (A.opcodeByNumber word.toNat).isSome)
    (hi : ∀ u ∈ i.expected, Ok d u) : ∀ u ∈ e.i.expected, Ok d u := by
  unfold effect at h
  simp only at h
  split at h
  case h_9 =>
    have key : e.i = i := by
      repeat' split at h
      all_goals first
        | (simp only [reduceCtorEq] at h; done)
        | (simp only [PR.ok.injEq] at h; subst h; rename_i h1 _; exact (Binary.setNumericInfo_same h1).1)
        | exact (Binary.setNumericInfo_same h).1
    rw [key]; exact hi
  case h_6 hk =>
    split at h
    · cases h
    split at h
    · cases h
    rename_i hsp
    split at h
    · cases h
    rename_i ops hops
    split at h
    · cases h
    simp only [PR.ok.injEq] at h; subst h
    obtain ⟨d', hd'⟩ := Option.isSome_iff_exists.1 (hspec (kind_spec hk))
    obtain ⟨d1, d2, ⟨rest, sh⟩, name, d3, -, -⟩ := ag.opcode _ _ hd'
    have hs : G.specConstOp word.toNat = true := by
      cases hc : G.specConstOp word.toNat with
      | true => rfl
      | false => exact absurd (.inr hc) hsp
    obtain ⟨-, -, s3⟩ := ag.specConstOp _ _ hs d3
    obtain ⟨s4, s5, s6⟩ := s3 d' hd'
    rw [d2] at hops; cases hops
    have hdrop : d'.operands.drop 2 = rest := by rw [sh.operands, s4, s5]; rfl
    simp only
    apply ok_push _ hi
    intro u hu
    refine ⟨sh.inner u (hdrop ▸ hu), s6 u (List.mem_of_mem_drop hu)⟩
  case h_5 =>
    split at h
    · cases h
    split at h
    · cases h
    split at h
    · rename_i ops hops
      simp only [PR.ok.injEq] at h; subst h
      simp only
      apply ok_push (ag.extInst _ _ _ hops).1
      split
      · intro u hu
        rcases List.mem_cons.1 hu with rfl | hu
        · exact ok_fixed d (by simp)
        · exact hi u hu
      · exact hi
    · split at h
      · cases h
      simp only [PR.ok.injEq] at h; subst h
      intro u hu
      rcases List.mem_cons.1 hu with rfl | hu
      · exact ok_fixed d (by simp)
      · exact hi u hu
  case h_13 hk =>
    split at h
    · rename_i q hq
      obtain ⟨hq1, hq2⟩ := Binary.maskLoop_eq G t false 32 word i.expected q (Nat.le_refl _) hq
      have hqok : ∀ u ∈ q, Ok d u := by
        intro u hu
        rw [hq1] at hu
        rcases List.mem_append.mp hu with hu | hu
        · unfold Binary.Spec.maskOperands at hu
          obtain ⟨b, hb, hu⟩ := List.mem_flatMap.1 hu
          split at hu
          · rename_i hbit
            obtain ⟨ops, hops⟩ := Option.isSome_iff_exists.1 (hq2 b (List.mem_range.1 hb) hbit)
            simp only [hops] at hu
            exact ok_of ((ag.operand _ _ _ hops).1 u (List.mem_filter.1 hu).1)
          · cases hu
        · exact hi u hu
      split at h
      · split at h
        · rename_i ops hops
          simp only [PR.ok.injEq] at h; subst h
          exact ok_push (ag.operand _ _ _ hops).1 hqok
        · simp only [PR.ok.injEq] at h; subst h; exact hqok
      · simp only [PR.ok.injEq] at h; subst h; exact hqok
    · cases h
    · cases h
    · cases h
  case h_11 =>
    split at h
    · simp at h
    · rename_i ops hops
      simp only [PR.ok.injEq] at h; subst h
      exact ok_push (ag.operand _ _ _ hops).1 hi
  case h_12 =>
    split at h
    · simp at h
    · rename_i ops hops
      simp only [PR.ok.injEq] at h; subst h
      exact ok_push (ag.operand _ _ _ hops).1 hi
  all_goals
    repeat' split at h
    all_goals first
      | (simp only [reduceCtorEq] at h; done)
      | (simp only [PR.ok.injEq] at h; subst h; exact hi)

/-- Where the two sides are inside an instruction. -/
structure Phase (d : OpDesc) (off op : Nat) (id0 : Word → Option Word) (tg : List (Bool × Word)) (m : MState)
    (i : IState) : Prop where
  ok : ∀ u ∈ i.expected, Ok d u
  extended : isExtended op = true →
    (m.idx - off = 3 ∧ ∃ r, i.expected = .ID :: .EXTENSION_INSTRUCTION_NUMBER :: r) ∨ 4 ≤ m.idx - off
  switch : op = Binary.opSwitch → m.idType = id0 ∧
    ((m.idx - off = 1 ∧ ∃ r, i.expected = .ID :: r) ∨ ∃ w, tg[0]? = some (true, w))
  imported : op = Binary.opExtInstImport → tg[0]? = some (true, i.resultId) ∧ (m.idType i.resultId).isSome ∧
    ((i.expected = [.LITERAL_STRING] ∧ m.imports i.resultId = none) ∨ i.expected = [])

theorem effect_same {G : Grammar} {ws : List Word} {off op : Nat} {t : OT} {word : Word} {m : MState} {i : IState}
    {e : Eff} (h : effect G false false ws off op t word m i = .ok e) (hr : t ≠ .RESULT_ID) :
    e.i.resultId = i.resultId ∧ e.m.idType = m.idType := by
  have := (Binary.effect_ok h).result
  rwa [if_neg hr] at this

/-- What operands other than the result id leave alone. -/
structure Same (m : MState) (i : IState) (m' : MState) (i' : IState) : Prop where
  idType : m'.idType = m.idType
  numType : m'.numType = m.numType
  resultId : i'.resultId = i.resultId
  typeId : i'.typeId = i.typeId

theorem Same.trans {m m1 m2 : MState} {i i1 i2 : IState} (h : Same m i m1 i1) (h' : Same m1 i1 m2 i2) : Same m i m2 i2 :=
  ⟨h'.1.trans h.1, h'.2.trans h.2, h'.3.trans h.3, h'.4.trans h.4⟩

/-- One operand. -/
theorem operand_step {G : Grammar} {A : AGrammar} {N : Names} (ag : Agree G A N) {P : List Nat} {ws : List Word}
    {off op wc : Nat} {id0 : Word → Option Word} {tg : List (Bool × Word)} {st : S} {m m1 : MState} {i i1 : IState}
    {t : OT} {x : Binary.Inst} {p : Pattern} {d : OpDesc}
    (hd : A.opcodeByNumber op = some d) (hxo : x.opcode = op) (hxw : x.words = (ws.drop off).take wc)
    (hwc : wc ≤ 65535) (hbud : ws.length < 2 ^ 32 - 2)
    (hst : StRel P ws off op id0 tg st m i) (hph : Phase d off op id0 tg m i)
    (htf : takeFirst i.expected = some (t, p))
    (hp : parseOperand G false false ws off op t m { i with expected := p } = .ok (m1, i1))
    (hle : m1.idx ≤ off + wc)
    (hok : ∀ o ∈ i1.operands, OperandOk A N x o)
    (hid : ∀ o ∈ i1.operands, o.type.isId = true → ∀ w, x.words[o.offset]? = some w → OkId P w)
    (hxt : isExtended op = true → 4 ≤ m.idx - off → x.extType = i.extType) :
    ∃ o tok tg1 st1, i1.operands = i.operands ++ [o] ∧ o.type ≠ .RESULT_ID ∧ emitOperand G N x o = some tok ∧
      Solid tok ∧ encodeOperand A P t tok { st with expected := p } = .ok st1 ∧
      StRel P ws off op id0 (tg ++ tg1) st1 m1 i1 ∧ Le P st.ctx.ids st1.ctx.ids ∧
      (o.type.isId = true → ∀ w, x.words[o.offset]? = some w → (true, w) ∈ tg1) ∧
      Phase d off op id0 (tg ++ tg1) m1 i1 ∧ (o.type.isId = false → ∀ w, (true, w) ∉ tg1) ∧
      Same m i m1 i1 := by
  obtain ⟨raw, e, hraw, he, hlen, rfl, rfl⟩ := Binary.parseOperand_inv hp
  rw [show Binary.fixW false raw = raw from rfl] at he
  simp only [Bool.false_eq_true, if_false] at *
  obtain ⟨htok, hpok⟩ := takeFirst_ok htf hph.ok
  obtain ⟨⟨hT, hR, -⟩, hS⟩ := htok
  have hok0 := hok _ (List.mem_append_right _ (List.mem_singleton.2 rfl))
  have hid0 := hid _ (List.mem_append_right _ (List.mem_singleton.2 rfl))
  have hne := hok0.nonempty
  simp only at hne hid0
  have hlo : off < m.idx := by rw [hst.len]; omega
  have hpos : Pos ws off wc x m.idx e.nwords := ⟨hxw, hlo, hle, hlen, hwc⟩
  have hword : x.words[(m.idx - off) % 65536]? = some raw := by rw [hpos.word hne, hraw]
  have hspec : t = .SPEC_CONSTANT_OP_NUMBER → (A.opcodeByNumber raw.toNat).isSome := by
    rintro rfl; exact hok0.specOp rfl raw hword
  -- the step
  have hstep : StepOk G A N P ws off op id0 tg t x
      ⟨(m.idx - off) % 65536, e.nwords, t.recorded, e.nkind, e.width, e.enc⟩
      { st with expected := p } { e.m with idx := m.idx + e.nwords }
      { e.i with
        operands := i.operands ++ [⟨(m.idx - off) % 65536, e.nwords, t.recorded, e.nkind, e.width, e.enc⟩]
        conv := i.conv } := by
    cases hk : t.kind with
    | typeId => exact absurd (by revert hk; cases t <;> decide) hT
    | resultId => exact absurd (by revert hk; cases t <;> decide) hR
    | unhandled =>
      unfold effect at he; simp only [hk] at he; cases he
    | extInstNum =>
      have hx : isExtended op = true ∧ 4 ≤ m.idx - off := by
        have h1 : isExtended op = true := by
          unfold effect at he
          simp only [hk] at he
          split at he
          · cases he
          · rename_i hc; simpa using hc
        refine ⟨h1, ?_⟩
        rcases hph.extended h1 with ⟨-, r, hr⟩ | h4
        · rw [hr] at htf
          simp only [takeFirst, Binary.expandOnce, Option.some.injEq, Prod.mk.injEq] at htf
          rw [← htf.1] at hk; cases hk
        · exact h4
      exact ext_step ag hst hk hraw he hpos (hxt hx.1 hx.2)
    | specConstOp => exact spec_step ag hst hk hraw he hpos hok0
    | enum => exact enum_step ag hst (.inl hk) hraw he hpos
    | sourceLang => exact enum_step ag hst (.inr hk) hraw he hpos
    | mask =>
      refine mask_step ag hst hk hraw he hpos ?_ hok0
      intro hs d' hd'
      rw [hxo, hd] at hd'; cases hd'
      exact hS hs
    | litInt => exact lit_number_step hst (.inl hk) hraw he hpos hok0
    | litFloat => exact lit_number_step hst (.inr hk) hraw he hpos hok0
    | typedLit =>
      refine typed_step hst hk hraw he hpos ?_ hok0
      intro hop
      obtain ⟨h1, h2⟩ := hph.switch hop
      refine ⟨?_, h1⟩
      rcases h2 with ⟨-, r, hr⟩ | h2
      · rw [hr] at htf
        simp only [takeFirst, Binary.expandOnce, Option.some.injEq, Prod.mk.injEq] at htf
        rw [← htf.1] at hk; cases hk
      · exact h2
    | str =>
      refine str_step ag hst hk hraw he hpos ?_ ?_ hok0
      · intro hop
        obtain ⟨h1, h2, h3⟩ := hph.imported hop
        refine ⟨?_, h1⟩
        rcases h3 with ⟨-, h3⟩ | h3
        · exact h3
        · rw [h3] at htf; cases htf
      · intro hop; exact (hph.imported hop).2.1
    | id =>
      have hkk := kind_id hk
      have hak : aKind t = .id := by rcases hkk with rfl | rfl <;> rfl
      have hri : t.recorded.isId = true := by rcases hkk with rfl | rfl <;> rfl
      unfold effect at he
      simp only [hk] at he
      split at he
      · cases he
      have hoff : (m.idx - off) % 65536 = m.idx - off := hpos.offset hne
      have hlim : m.idx < 2 ^ 32 - 2 := by omega
      split at he
      · rename_i hx
        simp only [Bool.and_eq_true, decide_eq_true_eq] at hx
        split at he
        · cases he
        rename_i ev hev
        simp only [PR.ok.injEq] at he
        subst he
        refine id_step hst hpos hak hT hR hraw rfl rfl (hid0 hri raw hword) hlim rfl ⟨rfl, rfl⟩ ?_
        rw [if_pos ⟨hx.1, by omega⟩]; exact hev
      · rename_i hx
        simp only [Bool.and_eq_true, decide_eq_true_eq] at hx
        simp only [PR.ok.injEq] at he
        subst he
        refine id_step hst hpos hak hT hR hraw rfl rfl (hid0 hri raw hword) hlim rfl ⟨rfl, rfl⟩ ?_
        rw [if_neg (fun hc => hx ⟨hc.1, by omega⟩)]
    | scopeOrSem =>
      have hkk := kind_scope hk
      have hak : aKind t = .id := by rcases hkk with rfl | rfl <;> rfl
      have hri : t.recorded.isId = true := by rcases hkk with rfl | rfl <;> rfl
      unfold effect at he
      simp only [hk] at he
      split at he
      · cases he
      have hlim : m.idx < 2 ^ 32 - 2 := by omega
      simp only [PR.ok.injEq] at he
      subst he
      refine id_step hst hpos hak hT hR hraw rfl rfl (hid0 hri raw hword) hlim rfl ⟨rfl, rfl⟩ ?_
      rw [if_neg]
      rintro ⟨h1, h2⟩
      rcases hph.extended h1 with ⟨-, r, hr⟩ | h4
      · rw [hr] at htf
        simp only [takeFirst, Binary.expandOnce, Option.some.injEq, Prod.mk.injEq] at htf
        rw [← htf.1] at hk; cases hk
      · omega
  obtain ⟨tok, tg1, st1, s1, s2, s3, s4, s5, s6, s7⟩ := hstep
  have hsame := effect_same he hR
  have hkeep : ∀ w : Bool × Word, tg[0]? = some w → (tg ++ tg1)[0]? = some w := by
    intro w hw
    cases tg with
    | nil => cases hw
    | cons a l => exact hw
  refine ⟨_, tok, tg1, st1, rfl, ?_, s1, s2, s3, s4, s5, ?_, ?_, s7,
    ⟨hsame.2, (Binary.effect_ok he).num, hsame.1, by
      have := (Binary.effect_ok he).typeId
      rwa [if_neg hT] at this⟩⟩
  · simp only
    rw [ne_eq, Binary.recorded_result]; exact hR
  · intro h1 w hw
    rw [s6 h1, hw]; simp
  · constructor
    · exact effect_ok_expected ag (d := d) he hspec hpok
    · intro hx
      simp only
      rcases hph.extended hx with ⟨h3, -⟩ | h4
      · right; omega
      · right; omega
    · intro hop
      simp only
      obtain ⟨h1, h2⟩ := hph.switch hop
      refine ⟨by rw [hsame.2]; exact h1, .inr ?_⟩
      rcases h2 with ⟨h2, r, hr⟩ | ⟨w, hw⟩
      · rw [hr] at htf
        simp only [takeFirst, Binary.expandOnce, Option.some.injEq, Prod.mk.injEq] at htf
        obtain ⟨rfl, rfl⟩ := htf
        have htg : tg = [] := by
          have := hst.len
          apply List.eq_nil_of_length_eq_zero; omega
        refine ⟨raw, ?_⟩
        rw [htg, s6 rfl, hword]; rfl
      · exact ⟨w, hkeep _ hw⟩
    · intro hop
      simp only
      obtain ⟨h1, h2, h3⟩ := hph.imported hop
      rw [hsame.1, hsame.2]
      refine ⟨hkeep _ h1, h2, .inr ?_⟩
      rcases h3 with ⟨h3, -⟩ | h3
      · rw [h3] at htf
        simp only [takeFirst, Binary.expandOnce, Option.some.injEq, Prod.mk.injEq] at htf
        obtain ⟨rfl, rfl⟩ := htf
        unfold effect at he
        simp only [show OT.kind .LITERAL_STRING = .str from rfl] at he
        repeat' split at he
        all_goals first
          | (simp only [reduceCtorEq] at he; done)
          | (simp only [PR.ok.injEq] at he; subst he; rfl)
      · rw [h3] at htf; cases htf

/-! ## The loop -/

theorem loop_mono {G : Grammar} {ws : List Word} {off op stop : Nat} {m m' : MState} {i i' : IState}
    (h : Binary.operandLoop G false false ws off op stop m i = .ok m' i') :
    m.idx ≤ m'.idx ∧ ∃ os, i'.operands = i.operands ++ os := by
  fun_induction Binary.operandLoop G false false ws off op stop m i with
  | case1 => cases h
  | case2 => cases h
  | case3 => cases h
  | case4 => cases h
  | case5 m i hlt t p htf m1 i1 hp ih =>
    obtain ⟨h1, os, h2⟩ := ih h
    obtain ⟨raw, e, -, -, -, rfl, rfl⟩ := Binary.parseOperand_inv hp
    simp only at h1 h2
    exact ⟨by omega, _, by rw [h2, List.append_assoc]⟩
  | case6 => cases h; exact ⟨Nat.le_refl _, [], by simp⟩

/-- The instruction set of an extended instruction is known after its third operand. -/
theorem loop_extType {G : Grammar} {ws : List Word} {off op stop : Nat} {m m' : MState} {i i' : IState}
    (hstop : stop ≤ off + 65535) (h4 : 4 ≤ m.idx - off)
    (h : Binary.operandLoop G false false ws off op stop m i = .ok m' i') : i'.extType = i.extType := by
  fun_induction Binary.operandLoop G false false ws off op stop m i with
  | case1 => cases h
  | case2 => cases h
  | case3 => cases h
  | case4 => cases h
  | case5 m i hlt t p htf m1 i1 hp ih =>
    obtain ⟨raw, e, -, he, -, rfl, rfl⟩ := Binary.parseOperand_inv hp
    rw [ih (by simp only; omega) h]
    simp only
    have hne : (m.idx - off) % 65536 ≠ 3 := by rw [Nat.mod_eq_of_lt (by omega)]; omega
    unfold effect at he
    simp only at he
    split at he
    case h_9 =>
      have key : e.i = { i with expected := p } := by
        repeat' split at he
        all_goals first
          | (simp only [reduceCtorEq] at he; done)
          | (simp only [PR.ok.injEq] at he; subst he; rename_i h1 _; exact (Binary.setNumericInfo_same h1).1)
          | exact (Binary.setNumericInfo_same he).1
      rw [key]
    case h_3 =>
      split at he
      · cases he
      split at he
      · rename_i hx
        simp only [Bool.and_eq_true, decide_eq_true_eq] at hx
        exact absurd hx.2 hne
      · simp only [PR.ok.injEq] at he; subst he; rfl
    all_goals
      repeat' split at he
      all_goals first
        | (simp only [reduceCtorEq] at he; done)
        | (simp only [PR.ok.injEq] at he; subst he; rfl)
  | case6 => cases h; rfl

/-- Reading one printed operand. -/
theorem asmLoop_token {A : AGrammar} {P : List Nat} {res tok : Text} {st st1 : S} {t : OT} {p : Pattern} {k : Text}
    (htf : takeFirst st.expected = some (t, p)) (hr : t ≠ .RESULT_ID) (htok : Solid tok) (hk : Sep k)
    (he : encodeOperand A P t tok { st with expected := p } = .ok st1) :
    Asm.operandLoop A P res st (' ' :: (tok ++ k)) = Asm.operandLoop A P res st1 k := by
  rw [Asm.operandLoop]
  split
  · rename_i h; rw [htf] at h; cases h
  · rename_i t' p' h
    rw [htf] at h; cases h
    rw [dif_neg (fun hc => hr hc.1)]
    split
    · rename_i h; rw [advance_space, htok.advance] at h; cases h
    · rename_i s1 h
      rw [advance_space, htok.advance] at h; cases h
      rw [htok.start k hk]
      simp only
      have hw := htok.word k hk.separated
      have hne : tok ≠ [] := by
        obtain ⟨c, r, rfl, -⟩ := htok.head; simp
      rw [dif_neg (by rw [hw]; exact hne)]
      simp only [hw, he]

/-- The operands from some point on. -/
theorem loop_step {G : Grammar} {A : AGrammar} {N : Names} (ag : Agree G A N) {P : List Nat} {ws : List Word}
    {off op wc : Nat} {id0 : Word → Option Word} {m m' : MState} {i i' : IState} {x : Binary.Inst} {d : OpDesc}
    (hd : A.opcodeByNumber op = some d) (hxo : x.opcode = op) (hxw : x.words = (ws.drop off).take wc)
    (hwc : wc ≤ 65535) (hbud : ws.length < 2 ^ 32 - 2)
    (h : Binary.operandLoop G false false ws off op (off + wc) m i = .ok m' i')
    (hend : m'.idx = off + wc) (hxt : x.extType = i'.extType)
    (hok : ∀ o ∈ i'.operands, OperandOk A N x o)
    (hid : ∀ o ∈ i'.operands, o.type.isId = true → ∀ w, x.words[o.offset]? = some w → OkId P w)
    {tg : List (Bool × Word)} {st : S}
    (hst : StRel P ws off op id0 tg st m i) (hph : Phase d off op id0 tg m i) :
    ∃ os T tg1 st1, i'.operands = i.operands ++ os ∧ (∀ o ∈ os, o.type ≠ .RESULT_ID) ∧
      emitOperands G N x os = some T ∧
      StRel P ws off op id0 (tg ++ tg1) st1 m' i' ∧ Le P st.ctx.ids st1.ctx.ids ∧
      (∀ o ∈ os, o.type.isId = true → ∀ w, x.words[o.offset]? = some w → (true, w) ∈ tg1) ∧
      Phase d off op id0 (tg ++ tg1) m' i' ∧
      ((∀ o ∈ os, o.type.isId = false) → ∀ w, (true, w) ∉ tg1) ∧ Same m i m' i' ∧
      ∀ res k, Sep k → Sep (T ++ k) ∧ Asm.operandLoop A P res st (T ++ k) = Asm.operandLoop A P res st1 k := by
  fun_induction Binary.operandLoop G false false ws off op (off + wc) m i generalizing tg st with
  | case1 => cases h
  | case2 => cases h
  | case3 => cases h
  | case4 => cases h
  | case5 m i hlt t p htf m1 i1 hp ih =>
    obtain ⟨hm, os0, hos0⟩ := loop_mono h
    have hsub : ∀ o ∈ i1.operands, o ∈ i'.operands := by
      intro o ho; rw [hos0]; exact List.mem_append_left _ ho
    obtain ⟨o, tok, tg1, st1, s1, s2, s3, s4, s5, s6, s7, s8, s9, s10, s11⟩ := operand_step ag hd hxo hxw hwc hbud hst hph htf hp
      (by omega) (fun o ho => hok o (hsub o ho)) (fun o ho => hid o (hsub o ho))
      (by
        intro hx h4
        rw [hxt]
        have h' : Binary.operandLoop G false false ws off op (off + wc) m i = .ok m' i' := by
          rw [Binary.operandLoop, if_pos hlt]
          split
          · rename_i hc; rw [htf] at hc; cases hc
          · rename_i t' p' hc
            rw [htf] at hc; cases hc
            split
            · rename_i hc; rw [hp] at hc; cases hc
            · rename_i hc; rw [hp] at hc; cases hc
            · rename_i hc; rw [hp] at hc; cases hc
            · rename_i hc; rw [hp] at hc; cases hc; exact h
        exact loop_extType (by omega) h4 h')
    obtain ⟨os, T, tg2, st2, r1, r2, r3, r4, r5, r6, r7, r9, r10, r8⟩ := ih h s6 s9
    have htr : t ≠ .RESULT_ID := by
      intro hc
      subst hc
      obtain ⟨⟨-, hR, -⟩, -⟩ := (takeFirst_ok htf hph.ok).1
      exact hR rfl
    refine ⟨o :: os, ' ' :: (tok ++ T), tg1 ++ tg2, st2, ?_, ?_, ?_, by rw [← List.append_assoc]; exact r4, s7.trans r5,
      ?_, by rw [← List.append_assoc]; exact r7, ?_, s11.trans r10, ?_⟩
    · rw [r1, s1]; simp
    · intro o' ho'
      rcases List.mem_cons.1 ho' with rfl | ho'
      · exact s2
      · exact r2 o' ho'
    · rw [emitOperands, if_neg s2, s3, r3]
    · intro o' ho' hid' w hw
      rcases List.mem_cons.1 ho' with rfl | ho'
      · exact List.mem_append_left _ (s8 hid' w hw)
      · exact List.mem_append_right _ (r6 o' ho' hid' w hw)
    · intro hno w hw
      rcases List.mem_append.1 hw with hw | hw
      · exact s10 (hno o (by simp)) w hw
      · exact r9 (fun o' ho' => hno o' (by simp [ho'])) w hw
    · intro res k hk
      obtain ⟨hs, hl⟩ := r8 res k hk
      have e : (' ' :: (tok ++ T)) ++ k = ' ' :: (tok ++ (T ++ k)) := by simp
      rw [e]
      refine ⟨Sep.token s4 hs.separated, ?_⟩
      rw [asmLoop_token (by rw [hst.expected]; exact htf) htr s4 hs s5, hl]
  | case6 m i hlt =>
    cases h
    exact ⟨[], [], [], st, by simp, by simp, rfl, by rw [List.append_nil]; exact hst, Le.refl _ _, by simp,
      by rw [List.append_nil]; exact hph, by simp, ⟨rfl, rfl, rfl, rfl⟩, fun res k hk => ⟨hk, rfl⟩⟩

end Verif.Disasm
