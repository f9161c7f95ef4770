import Verif.Disasm.Inst
/-!
The line of an instruction, as a whole.
-/
set_option linter.unusedSimpArgs false
set_option linter.unusedVariables false
namespace Verif.Disasm
open Verif.ParseNumber (Text NumberType)
open Verif.Binary (OT Grammar Pattern pushTypes takeFirst MState IState POperand NumType Eff PR isExtended
  effect parseOperand parseInstruction)
open Verif.Asm hiding Inst Word
open Verif.Asm.Spec (Separated)
open Spec

/-- The result id as it is printed; nothing if there is none. -/
def resText (r : Word) : Text := if r ≠ 0 then '%' :: dec r.toNat else []

/-- The line without the blanks in front. -/
def coreText (r : Word) (name T : Text) : Text :=
  (if r ≠ 0 then '%' :: dec r.toNat ++ [' ', '=', ' '] else []) ++ 'O' :: 'p' :: (name ++ T)

theorem startsWithOp_pre {s : Text} (h : startsWithOp s = true) (k : Text) : startsWithOp (s ++ k) = true := by
  match s, h with
  | a :: b :: c :: r, h => exact h

theorem getWord_op {name : Text} (h : OpNameOk name) {k : Text} (hk : Separated k) :
    getWord ('O' :: 'p' :: (name ++ k)) = ('O' :: 'p' :: name, k) := by
  have := getWord_plain (tok := 'O' :: 'p' :: name) (k := k) ?_ hk
  · simpa using this
  · intro c hc
    simp only [List.mem_cons] at hc
    rcases hc with rfl | rfl | hc
    · decide
    · decide
    · exact plain_valid ((valid_chars h.1).2 c hc)

theorem readOpcode_core {r : Word} {name T k : Text} (h : OpNameOk name) (hk : Separated (T ++ k)) :
    readOpcode (coreText r name T ++ k) = .ok (resText r, 'O' :: 'p' :: name, T ++ k) := by
  have hop : ∀ s, startsWithOp ('O' :: 'p' :: (name ++ s)) = true := by
    intro s
    have := startsWithOp_pre h.2.1 s
    simpa using this
  unfold coreText resText
  by_cases hr : r = 0
  · simp only [hr, ne_eq, not_true_eq_false, if_false, List.nil_append, List.cons_append, List.append_assoc]
    unfold readOpcode
    simp only [getWord_op h hk, hop, if_true]
  · simp only [hr, ne_eq, not_false_eq_true, if_true, List.append_assoc, List.cons_append, List.nil_append]
    have hid : ∀ c ∈ '%' :: dec r.toNat, plain c = true := by
      intro c hc
      rcases List.mem_cons.mp hc with rfl | hc
      · decide
      · exact plain_valid ((valid_chars (dec_valid _)).2 c hc)
    have g1 := getWord_plain hid (Separated.space ('=' :: ' ' :: 'O' :: 'p' :: (name ++ (T ++ k))))
    rw [List.cons_append] at g1
    have hs : startsWithOp ('%' :: (dec r.toNat ++ ' ' :: '=' :: ' ' :: 'O' :: 'p' :: (name ++ (T ++ k)))) = false := by
      match he : dec r.toNat ++ ' ' :: '=' :: ' ' :: 'O' :: 'p' :: (name ++ (T ++ k)) with
      | [] => rfl
      | [_] => rfl
      | _ :: _ :: _ => rfl
    have g2 := getWord_plain (tok := ['=']) (by intro c hc; simp only [List.mem_singleton] at hc; subst hc; decide)
      (Separated.space ('O' :: 'p' :: (name ++ (T ++ k))))
    rw [List.cons_append, List.nil_append] at g2
    have a1 : advance (' ' :: '=' :: ' ' :: 'O' :: 'p' :: (name ++ (T ++ k))) =
        some ('=' :: ' ' :: 'O' :: 'p' :: (name ++ (T ++ k))) := by
      rw [advance_space, advance_solid (by decide) (by decide) (by decide)]
    have a2 : advance (' ' :: 'O' :: 'p' :: (name ++ (T ++ k))) = some ('O' :: 'p' :: (name ++ (T ++ k))) := by
      rw [advance_space, advance_solid (by decide) (by decide) (by decide)]
    unfold readOpcode
    simp only [g1, hs, Bool.false_eq_true, if_false, a1, g2, a2, getWord_op h hk, hop, if_true, ne_eq,
      not_true_eq_false]

theorem isStart_core {r : Word} {name T k : Text} (h : OpNameOk name) (hk : Separated (T ++ k)) :
    advance (coreText r name T ++ k) = some (coreText r name T ++ k) ∧
    isStartOfNewInst (coreText r name T ++ k) = some true ∧ (getWord (coreText r name T ++ k)).1 ≠ ['='] := by
  have hop : ∀ s, startsWithOp ('O' :: 'p' :: (name ++ s)) = true := by
    intro s
    have := startsWithOp_pre h.2.1 s
    simpa using this
  unfold coreText
  by_cases hr : r = 0
  · simp only [hr, ne_eq, not_true_eq_false, if_false, List.nil_append, List.cons_append, List.append_assoc]
    have ha : advance ('O' :: 'p' :: (name ++ (T ++ k))) = some ('O' :: 'p' :: (name ++ (T ++ k))) :=
      advance_solid (by decide) (by decide) (by decide)
    refine ⟨ha, ?_, ?_⟩
    · unfold isStartOfNewInst
      rw [ha]; simp only [hop, if_true]
    · rw [getWord_op h hk]; simp
  · simp only [hr, ne_eq, not_false_eq_true, if_true, List.append_assoc, List.cons_append, List.nil_append]
    have hid : ∀ c ∈ '%' :: dec r.toNat, plain c = true := by
      intro c hc
      rcases List.mem_cons.mp hc with rfl | hc
      · decide
      · exact plain_valid ((valid_chars (dec_valid _)).2 c hc)
    have g1 := getWord_plain hid (Separated.space ('=' :: ' ' :: 'O' :: 'p' :: (name ++ (T ++ k))))
    rw [List.cons_append] at g1
    have hs : startsWithOp ('%' :: (dec r.toNat ++ ' ' :: '=' :: ' ' :: 'O' :: 'p' :: (name ++ (T ++ k)))) = false := by
      match he : dec r.toNat ++ ' ' :: '=' :: ' ' :: 'O' :: 'p' :: (name ++ (T ++ k)) with
      | [] => rfl
      | [_] => rfl
      | _ :: _ :: _ => rfl
    have g2 := getWord_plain (tok := ['=']) (by intro c hc; simp only [List.mem_singleton] at hc; subst hc; decide)
      (Separated.space ('O' :: 'p' :: (name ++ (T ++ k))))
    rw [List.cons_append, List.nil_append] at g2
    have a1 : advance (' ' :: '=' :: ' ' :: 'O' :: 'p' :: (name ++ (T ++ k))) =
        some ('=' :: ' ' :: 'O' :: 'p' :: (name ++ (T ++ k))) := by
      rw [advance_space, advance_solid (by decide) (by decide) (by decide)]
    have a2 : advance (' ' :: 'O' :: 'p' :: (name ++ (T ++ k))) = some ('O' :: 'p' :: (name ++ (T ++ k))) := by
      rw [advance_space, advance_solid (by decide) (by decide) (by decide)]
    have ha : advance ('%' :: (dec r.toNat ++ ' ' :: '=' :: ' ' :: 'O' :: 'p' :: (name ++ (T ++ k)))) =
        some ('%' :: (dec r.toNat ++ ' ' :: '=' :: ' ' :: 'O' :: 'p' :: (name ++ (T ++ k)))) :=
      advance_solid (by decide) (by decide) (by decide)
    refine ⟨ha, ?_, ?_⟩
    · unfold isStartOfNewInst
      rw [ha]
      simp only [hs, Bool.false_eq_true, if_false, g1, a1, g2, a2, hop, ne_eq, not_true_eq_false]
    · rw [g1]; simp

theorem shape_push {G : Grammar} {d : OpDesc} {rest : List OT} (sh : Shape G d rest) :
    pushTypes d.operands [] = d.operands := by
  unfold pushTypes
  rw [List.append_nil, List.filter_eq_self]
  intro t ht
  rw [sh.operands] at ht
  simp only [List.mem_append] at ht
  rcases ht with (ht | ht) | ht
  · split at ht
    · simp only [List.mem_singleton] at ht; subst ht; decide
    · cases ht
  · split at ht
    · simp only [List.mem_singleton] at ht; subst ht; decide
    · cases ht
  · have := (sh.inner t ht).2.2
    simpa using this

theorem tiles_length {a b : Nat} {os : List POperand} (h : Binary.Spec.Tiles a os b) (hn : ∀ o ∈ os, 1 ≤ o.nwords) :
    a + os.length ≤ b := by
  induction os generalizing a with
  | nil => simp only [Binary.Spec.Tiles] at h; simp; omega
  | cons o os ih =>
    have h1 := ih h.2 (fun o ho => hn o (by simp [ho]))
    have h2 := hn o (by simp)
    simp only [List.length_cons]; omega

/-- One instruction. -/
structure LineOk (G : Grammar) (A : AGrammar) (N : Names) (P : List Nat) (x : Binary.Inst) (m2 : MState)
    (ctx ctx' : Ctx) (name T : Text) (inst : Asm.Inst) (raw : Word) (tg : List (Bool × Word)) : Prop where
  hname : N.opcode x.opcode = some name
  nameOk : OpNameOk name
  emit : emitOperands G N x x.operands = some T
  all : x.operands.take x.numOperands = x.operands
  words : x.words = raw :: tg.map (·.2)
  hinst : inst.words = raw :: tg.map (ren P ctx'.ids)
  known : ∀ w, (true, w) ∈ tg → (rho P ctx'.ids w).isSome
  le : Le P ctx.ids ctx'.ids
  hctx : CtxRel P m2.idx ctx' m2 m2.idType
  ids : ∀ o ∈ x.operands, o.type.isId = true → ∀ w, x.words[o.offset]? = some w → (true, w) ∈ tg
  target : x.opcode = opName ∨ x.opcode = opDecorate → x.operands ≠ [] ∧ ∀ o ∈ x.operands, o.type ≠ .RESULT_ID
  sep : ∀ k, Sep k → Sep (T ++ k)
  asm : ∀ k, TailOk k → ∃ rest, advance rest = advance k ∧
    encodeOpcode A P ctx (coreText x.resultId name T ++ k) = .ok (ctx', inst, rest)

theorem line_step {G : Grammar} {A : AGrammar} {N : Names} (ag : Agree G A N) {opt : Options} {P : List Nat}
    {ws : List Word} {m m2 : MState} {x : Binary.Inst} {ctx : Ctx}
    (hp : parseInstruction G false false ws m = .inst m2 x) (hf : Faithful A N opt x)
    (hid : ∀ o ∈ x.operands, o.type.isId = true → ∀ w, x.words[o.offset]? = some w → OkId P w)
    (hbud : ws.length < 2 ^ 32 - 2) (hctx : CtxRel P m.idx ctx m m.idType) :
    ∃ ctx' name T inst raw tg, LineOk G A N P x m2 ctx ctx' name T inst raw tg := by
  have hinst := Binary.parseInstruction_ok hp
  obtain ⟨d, hd⟩ := Option.isSome_iff_exists.1 hf.supported
  unfold parseInstruction at hp
  split at hp
  · cases hp
  rename_i raw hraw
  simp only [show Binary.fixW false raw = raw from rfl, Bool.false_eq_true, if_false] at hp
  split at hp
  · cases hp
  rename_i hwc1
  split at hp
  · cases hp
  rename_i ops hops
  split at hp
  · cases hp
  · cases hp
  · rename_i hl
    exfalso
    -- `retry` needs the option for unknown instructions
    have : ∀ (m : MState) (i : IState) (stop off op : Nat) m1 i1,
        Binary.operandLoop G false false ws off op stop m i ≠ .retry m1 i1 := by
      intro m i stop off op m1 i1
      fun_induction Binary.operandLoop G false false ws off op stop m i with
      | case1 => simp
      | case2 => simp
      | case4 => simp
      | case3 m i hlt t p htf hpp =>
        have := Binary.parseOperand_retry hpp
        simp at this
      | case5 m i hlt t p htf m' i' hpp ih => exact ih
      | case6 => simp
    exact this _ _ _ _ _ _ _ hl
  rename_i m' i' hl
  obtain ⟨hfin, hend, -, hlen, hrec, hx⟩ := Binary.finishInst_inst hp
  simp only [Bool.false_eq_true, if_false] at hx
  have hwc : Binary.wordCount raw ≤ 65535 := Binary.wordCount_le raw
  have hxo : x.opcode = Binary.opcodeOf raw := by rw [hx]
  have hxw : x.words = (ws.drop m.idx).take (Binary.wordCount raw) := by rw [hx]
  have hxops : x.operands = i'.operands := by rw [hx]
  have hxext : x.extType = i'.extType := by rw [hx]
  have hxres : x.resultId = i'.resultId := by rw [hx]
  have hxnum : x.numOperands = i'.operands.length % 65536 := by rw [hx]
  rw [hxo] at hd
  obtain ⟨hop, hG, ⟨rest, sh⟩, name, hn1, hn2, hn3⟩ := ag.opcode _ _ hd
  rw [hG] at hops; cases hops
  rw [shape_push sh] at hl
  generalize hopx : Binary.opcodeOf raw = op at *
  generalize hwcx : Binary.wordCount raw = wc at *
  clear hx
  have hok : ∀ o ∈ i'.operands, OperandOk A N x o := by rw [← hxops]; exact hf.operands
  have hid' : ∀ o ∈ i'.operands, o.type.isId = true → ∀ w, x.words[o.offset]? = some w → OkId P w := by
    rw [← hxops]; exact hid
  -- the start
  have hst0 : StRel P ws m.idx op m.idType [] ⟨ctx, ⟨[0], d.opcode, 0, 0⟩, d.operands⟩ { m with idx := m.idx + 1 }
      ⟨0, 0, 0, [raw], [], d.operands⟩ := by
    refine ⟨(hctx.idx _).mono (by simp), rfl, by simp, rfl, rfl, hop, rfl, rfl, ?_⟩
    intro h; exact absurd rfl h
  let r0 : Word := (ws[m.idx + 1 + (if d.hasType then 1 else 0)]?).getD 0
  obtain ⟨m1, i1, st1, tgT, T1, H1, e1, hr1, hit1, htgT, htyp1⟩ :=
    head_type (A := A) (N := N) (x := x) (b := d.hasType)
      (R := (if d.hasResult then [.RESULT_ID] else []) ++ rest) (res := if d.hasResult then '%' :: dec r0.toNat else [])
      hxw hwc hbud hl hend rfl hfin hid' hst0 rfl (by simp only; rw [sh.operands, List.append_assoc])
  have hm1 : m1.idx = m.idx + 1 + (if d.hasType then 1 else 0) := by
    rw [H1.idx, htgT]; simp only; split <;> rfl
  obtain ⟨m3, i3, st3, tgR, H2, e2, hty2, htgR, hres2, hws2, hit2⟩ :=
    head_result (A := A) (N := N) (x := x) (b := d.hasResult) (R := rest)
      (res := if d.hasResult then '%' :: dec r0.toNat else [])
      hxw hwc hbud H1.loop hend (by rw [List.nil_append, htgT]; split <;> simp) hfin hid' H1.rel
      (by rw [hr1])
      (by
        intro hb raw' hraw'
        rw [if_pos hb]
        have : r0 = raw' := by
          show (ws[m.idx + 1 + (if d.hasType then 1 else 0)]?).getD 0 = raw'
          rw [← hm1, hraw']; rfl
        rw [this]) e1
  rw [List.nil_append] at H2
  have hrel2 := H2.rel
  have hm3 : m3.idx = m.idx + 1 + (tgT ++ tgR).length := hrel2.len
  -- the phase
  have hph : Phase d m.idx op m.idType (tgT ++ tgR) m3 i3 := by
    constructor
    · rw [e2]
      intro u hu
      exact ⟨sh.inner u hu, fun _ => by rw [sh.operands]; exact List.mem_append_right _ hu⟩
    · intro hx
      obtain ⟨s1, s2, r, s3⟩ := sh.extended (by rw [hop]; exact hx)
      left
      rw [e2, hm3, htgT, htgR, s1, s2]
      exact ⟨by simp; omega, r, s3⟩
    · intro hsw
      obtain ⟨s1, r, s2⟩ := sh.switch (by rw [hop]; exact hsw)
      have s3 : d.hasType = false := by
        cases hh : d.hasType with
        | false => rfl
        | true => rw [sh.typed hh] at s1; cases s1
      simp only [s1, Bool.false_eq_true, if_false] at hit2
      refine ⟨by rw [hit2, hit1], .inl ?_⟩
      rw [hm3, htgT, htgR, s1, s3, e2]
      exact ⟨by simp, r, s2⟩
    · intro him
      obtain ⟨s1, s2, s3, s4⟩ := sh.extImport (by rw [hop]; exact him)
      simp only [s1, if_true] at hit2
      refine ⟨by rw [htgT, htgR, s1, s2]; rfl, by rw [hit2.2]; simp, .inl ⟨by rw [e2, s4], ?_⟩⟩
      have h3 : m.idType i3.resultId = none := by
        have := hit2.1; rwa [hit1] at this
      rw [H2.imports, H1.imports]
      exact (hctx.undef _ h3).2
  -- the other operands
  obtain ⟨os, T2, tg2, st4, q1, q2, q3, q4, q5, q6, q7, q8, q9, q10⟩ := loop_step ag hd hxo hxw hwc hbud H2.loop hend
    hxext hok hid' hrel2 hph
  have hrid : i'.resultId = i3.resultId := q9.resultId
  have htid : i'.typeId = i1.typeId := by rw [q9.typeId, hty2]
  have hlen2 : m'.idx = m3.idx + tg2.length := by
    have a := q4.len
    rw [List.length_append] at a
    omega
  have hxwords : x.words = raw :: ((tgT ++ tgR) ++ tg2).map (·.2) := by
    obtain ⟨hlt, hge⟩ := List.getElem?_eq_some_iff.1 hraw
    have hlq := q4.len
    rw [hxw, List.drop_eq_getElem_cons hlt, hge]
    obtain ⟨n, rfl⟩ : ∃ n, wc = n + 1 := ⟨wc - 1, by omega⟩
    rw [List.take_succ_cons, ← q4.slice]
    congr 2
    omega
  -- the end
  obtain ⟨ctx', hfinish, hids', hctx'⟩ := finish_rel ag (wc := wc) (m2 := m2) (tg2 := tg2) sh hop q4
    (by rw [htgT, htgR, htid, hrid])
    (by
      intro hb
      rw [htid]
      cases hc : decide (i1.typeId = 0) with
      | true => simpa using hc
      | false =>
        have := htyp1.2 (by simpa using hc)
        rw [hb] at this; cases this)
    (by
      rw [hrid, htid, q9.idType]
      split
      · rename_i hb
        simp only [hb, if_true] at hit2
        rw [hit1] at hit2
        exact hit2
      · rename_i hb
        simp only [hb, Bool.false_eq_true, if_false] at hit2
        rw [hit2, hit1])
    (by
      intro hb
      simp only [hb, if_true] at hit2
      have h3 : m.idType i3.resultId = none := by
        have := hit2.1; rwa [hit1] at this
      rw [hrid, q9.numType, H2.numType, H1.numType]
      exact (hctx.undef _ h3).1)
    hrec hend hwc
    (by
      intro hi
      obtain ⟨-, hrest⟩ := sh.typeInt (by rw [hop]; exact hi)
      obtain ⟨os', z1, z2, z3⟩ := loop_typeInt H2.loop (by rw [e2, hrest]) hfin
      have hoo : os' = os := List.append_cancel_left (by rw [← z1, q1])
      subst hoo
      have hl2 : tg2.length = 2 := by omega
      have ht2 := tag_two (q8 z2) hl2
      match tg2, hl2, ht2 with
      | [(f1, a), (f2, b)], _, ht2 =>
        simp only [List.map_cons, List.map_nil, List.cons.injEq, Prod.mk.injEq, and_true] at ht2
        exact ⟨a, b, by rw [ht2.1, ht2.2]⟩)
    (by
      intro hi
      obtain ⟨hgen, hrest⟩ := sh.typeFloat (by rw [hop]; exact hi)
      obtain ⟨os', z1, z2, z3⟩ := loop_typeFloat ag H2.loop (by rw [e2, hrest]) hfin
      have hoo : os' = os := List.append_cancel_left (by rw [← z1, q1])
      subst hoo
      have ht2 := tag_two (q8 z2) rfl
      rcases z3 with z3 | ⟨z3, w, hw, hsome⟩
      · left
        have hl2 : tg2.length = 1 := by omega
        match tg2, hl2, ht2 with
        | [(f1, a)], _, ht2 =>
          simp only [List.map_cons, List.map_nil, List.cons.injEq, Prod.mk.injEq, and_true] at ht2
          exact ⟨a, by rw [ht2]⟩
      · right
        have hl2 : tg2.length = 2 := by omega
        have hhead : tgT ++ tgR = [(true, i3.resultId)] := by
          obtain ⟨g1, g2⟩ := sh.generates hgen
          rw [htgT, htgR, g1, g2]; rfl
        match tg2, hl2, ht2, q4, hxwords with
        | [(f1, a), (f2, b)], _, ht2, q4, hxwords =>
          simp only [List.map_cons, List.map_nil, List.cons.injEq, Prod.mk.injEq, and_true] at ht2
          have hb : ws[m3.idx + 1]? = some b := by
            have := q4.get (k := (tgT ++ tgR).length + 1) (q := (f2, b)) (by
              rw [List.getElem?_append_right (by omega)]; simp)
            rw [hm3]; simpa [Nat.add_assoc] using this
          rw [hw] at hb; cases hb
          refine ⟨a, w, by rw [ht2.1, ht2.2], hsome, ?_⟩
          rw [hhead] at hxwords
          exact hf.encoding (by rw [hxo]; exact hi) _ _ _ _ hxwords)
  rw [show opcodeMake wc op = raw by rw [← hopx, ← hwcx]; exact opcodeMake_self raw] at hfinish
  obtain ⟨osT, u1, u2, u3, u4⟩ := H1.emit
  obtain ⟨osR, v1, v2, v3, v4⟩ := H2.emit
  have hopsEq : i'.operands = osT ++ (osR ++ os) := by
    rw [q1, v1, u1]; simp
  have hemit : emitOperands G N x x.operands = some (T1 ++ T2) := by
    rw [hxops, hopsEq]
    have := u2 _ _ (v2 _ _ q3)
    simpa using this
  refine ⟨ctx', name, T1 ++ T2,
    { st4.inst with words := raw :: ((tgT ++ tgR) ++ tg2).map (ren P st4.ctx.ids) }, raw, (tgT ++ tgR) ++ tg2, ⟨by rw [hxo]; exact hn1, hn2, hemit, ?_, hxwords, ?_, ?_, ?_, hctx', ?_,
    ?_, ?_, ?_⟩⟩
  · rcases hinst.tiles with ⟨ht, hn⟩ | ⟨hc, -⟩
    · have hlen := tiles_length ht (fun o ho => (hf.operands o ho).nonempty)
      have : x.words.length ≤ 65535 := by rw [hxw]; simp; omega
      rw [hn, Nat.mod_eq_of_lt (by omega), List.take_length]
    · cases hc
  · simp only; rw [hids']
  · rw [hids']; exact q4.known
  · rw [hids']
    exact (H1.le.trans H2.le).trans q5
  · intro o ho hoid w hw
    rw [hxops, hopsEq] at ho
    simp only [List.mem_append] at ho ⊢
    rcases ho with ho | ho | ho
    · exact .inl (.inl ((u3 o ho).2 w hw))
    · exact .inl (.inr ((v3 o ho).2 w hw))
    · exact .inr (q6 o ho hoid w hw)
  · intro ht
    obtain ⟨t1, r, t2⟩ := sh.target (by rw [hop, ← hxo]; exact ht)
    constructor
    · obtain ⟨m6, i6, hp6, hl6⟩ := loop_must H2.loop (t := .ID) (r := r) (by rw [e2, t2]; rfl) (by rw [e2, t2]) rfl hfin
      obtain ⟨-, os6, hos6⟩ := loop_mono hl6
      obtain ⟨raw6, e6, -, -, -, -, rfl⟩ := Binary.parseOperand_inv hp6
      rw [hxops, hos6]
      simp
    · intro o ho hres
      have h6 := hinst.hasRes o ho hres
      rw [hxres, hrid] at h6
      have := hres2.2 h6
      rw [t1] at this; cases this
  · intro k hk
    rw [List.append_assoc]
    exact (H1.asm _ (q10 [] k hk).1).1
  · intro k hk
    have hs2 := q10 (if d.hasResult then '%' :: dec r0.toNat else []) k hk.sep
    have h2 := H2.asm (T2 ++ k) hs2.1
    rw [List.nil_append] at h2
    have h1 := H1.asm (T2 ++ k) h2.1
    have hres : resText x.resultId = (if d.hasResult then '%' :: dec r0.toNat else []) := by
      unfold resText
      rw [hxres, hrid]
      cases hb : d.hasResult with
      | true =>
        rw [if_pos (hres2.1 hb)]
        have h5 := hws2 hb
        rw [hm1] at h5
        have : r0 = i3.resultId := by
          show (ws[m.idx + 1 + (if d.hasType then 1 else 0)]?).getD 0 = _
          rw [h5]; rfl
        rw [this]; rfl
      | false =>
        rw [if_neg]
        · rfl
        · intro hc
          have := hres2.2 hc
          rw [hb] at this; cases this
    obtain ⟨st5, rst, w1, w2, w3, w4⟩ := asmLoop_end (A := A) (P := P)
      (res := if d.hasResult then '%' :: dec r0.toNat else []) (st := st4)
      (by rw [q4.expected]; exact hfin) hk
    refine ⟨rst, w4, ?_⟩
    unfold encodeOpcode
    have hhd : (coreText x.resultId name (T1 ++ T2) ++ k).head? ≠ some '!' := by
      unfold coreText
      split <;> simp
    rw [if_neg hhd, readOpcode_core hn2 (by rw [List.append_assoc]; exact h1.1.separated), hres]
    simp only
    rw [if_neg (by
      intro hc
      apply hn2.2.2
      have : name = ("OpUnknown".toList).drop 2 := by rw [← hc]; rfl
      rw [this]; rfl)]
    rw [show ('O' :: 'p' :: name).drop 2 = name from rfl, hn3]
    simp only
    rw [if_neg (by rintro ⟨hc, hc2⟩; rw [if_pos hc] at hc2; cases hc2),
      if_neg (by rintro ⟨hc, hc2⟩; rw [hc] at hc2; exact hc2 rfl)]
    rw [List.append_assoc, h1.2, h2.2, hs2.2, w1]
    simp only [w2, w3, hfinish]

end Verif.Disasm
