import Verif.Binary.Loop
set_option linter.unusedSimpArgs false
set_option linter.unusedVariables false

/-! No fault under `Spec.GrammarOk`. -/
namespace Verif.Binary
open Verif.StringLit (Byte Word)
open Spec

theorem ordinary_of_var {t : OT} (h : t.isVariable = true) (h2 : ordinary t) :
    ∀ x q p, expandOnce t p = some (x :: q) → ordinary x ∧ ∀ y ∈ q, y ∈ p ∨ ordinary y := by
  intro x q p he
  cases t <;> first
    | exact absurd h (by decide)
    | exact absurd h2 (by decide)
    | (simp only [expandOnce, Option.some.injEq, List.cons.injEq] at he
       obtain ⟨rfl, rfl⟩ := he
       refine ⟨by decide, fun y hy => ?_⟩
       simp only [List.mem_cons] at hy
       rcases hy with rfl | rfl | hy
       · right; decide
       · right; decide
       · exact Or.inl hy)
    | (simp only [expandOnce, Option.some.injEq, List.cons.injEq] at he
       obtain ⟨rfl, rfl⟩ := he
       refine ⟨by decide, fun y hy => ?_⟩
       simp only [List.mem_cons] at hy
       rcases hy with rfl | hy
       · right; decide
       · exact Or.inl hy)

theorem takeFirst_ordinary {p q : Pattern} {t : OT} (h : takeFirst p = some (t, q))
    (hp : ∀ x ∈ p, ordinary x) : ordinary t ∧ ∀ x ∈ q, ordinary x := by
  cases p with
  | nil => simp [takeFirst] at h
  | cons a p =>
    simp only [takeFirst] at h
    have ha := hp a (by simp)
    rcases expandOnce_eq a p with ⟨h1, h2⟩ | ⟨b, bs, h1, h2, h3⟩
    · rw [h1] at h
      simp only [Option.some.injEq, Prod.mk.injEq] at h
      obtain ⟨rfl, rfl⟩ := h
      exact ⟨ha, fun x hx => hp x (by simp [hx])⟩
    · rw [h1] at h
      simp only [Option.some.injEq, Prod.mk.injEq] at h
      obtain ⟨rfl, rfl⟩ := h
      obtain ⟨h4, h5⟩ := ordinary_of_var h2 ha _ _ _ h1
      refine ⟨h4, fun x hx => ?_⟩
      rcases h5 x hx with h6 | h6
      · exact hp x (by simp [h6])
      · exact h6

/-- `OpSwitch` patterns. -/
def swOk (t : OT) : Prop := ordinary t ∨ t = .VARIABLE_LITERAL_INTEGER_ID

theorem takeFirst_sw {p q : Pattern} {t : OT} (h : takeFirst p = some (t, q))
    (hp : ∀ x ∈ p, swOk x) : (ordinary t ∨ t = .OPTIONAL_TYPED_LITERAL_INTEGER) ∧ ∀ x ∈ q, swOk x := by
  cases p with
  | nil => simp [takeFirst] at h
  | cons a p =>
    simp only [takeFirst] at h
    rcases hp a (by simp) with ha | ha
    · rcases expandOnce_eq a p with ⟨h1, h2⟩ | ⟨b, bs, h1, h2, h3⟩
      · rw [h1] at h
        simp only [Option.some.injEq, Prod.mk.injEq] at h
        obtain ⟨rfl, rfl⟩ := h
        exact ⟨Or.inl ha, fun x hx => hp x (by simp [hx])⟩
      · rw [h1] at h
        simp only [Option.some.injEq, Prod.mk.injEq] at h
        obtain ⟨rfl, rfl⟩ := h
        obtain ⟨h4, h5⟩ := ordinary_of_var h2 ha _ _ _ h1
        refine ⟨Or.inl h4, fun x hx => ?_⟩
        rcases h5 x hx with h6 | h6
        · exact hp x (by simp [h6])
        · exact Or.inl h6
    · subst ha
      simp only [expandOnce, Option.some.injEq, Prod.mk.injEq] at h
      obtain ⟨rfl, rfl⟩ := h
      refine ⟨Or.inr rfl, fun x hx => ?_⟩
      rcases List.mem_cons.1 hx with rfl | hx
      · left; simp [ordinary, OT.kind]
      · rcases List.mem_cons.1 hx with rfl | hx
        · exact Or.inr rfl
        · exact hp x (by simp [hx])

theorem pushTypes_split {ops : List OT} {p : Pattern} (h : ∀ x ∈ ops, ordinary x) :
    ∃ l, pushTypes ops p = l ++ p ∧ ∀ x ∈ l, ordinary x :=
  ⟨_, rfl, fun x hx => h x (List.mem_filter.1 hx).1⟩

theorem ordinary_VARIABLE_ID : ordinary .VARIABLE_ID := by decide

theorem effect_expected {G : Grammar} (hG : GrammarOk G) {unk swap : Bool} {ws : List Word} {off op : Nat}
    {t : OT} {word : Word} {m : MState} {i : IState} {e : Eff}
    (h : effect G unk swap ws off op t word m i = .ok e) :
    ∃ l, e.i.expected = l ++ i.expected ∧ (∀ x ∈ l, ordinary x) ∧
      (t.kind = .typeId ∨ t.kind = .resultId ∨ t.kind = .id ∨ t.kind = .litInt ∨ t.kind = .str ∨
        t.kind = .typedLit → l = []) := by
  unfold effect at h
  simp only at h
  split at h <;> rename_i hk <;> rw [hk] <;>
    simp only [reduceCtorEq, or_self, false_implies, and_true, true_implies, or_true, or_false, false_or, true_or]
  case h_9 =>
    have key : e.i = i := by
      repeat' split at h
      all_goals first
        | (simp only [reduceCtorEq] at h; done)
        | (simp only [PR.ok.injEq] at h; subst h; rename_i h1 _; exact (setNumericInfo_ok h1).1)
        | exact (setNumericInfo_ok h).1
    exact ⟨[], by simp [key], by simp, rfl⟩
  case h_6 =>
    split at h
    · simp at h
    · split at h
      · simp at h
      · split at h
        · simp at h
        · split at h
          · simp at h
          · rename_i hx _ ops hops hlen
            simp only [PR.ok.injEq] at h; subst h
            apply pushTypes_split
            exact (hG.specConstOp _ _ (by simp at hx; exact hx.2) hops).2
  case h_5 =>
    split at h
    · simp at h
    · split at h
      · simp at h
      · split at h
        · rename_i ops hops
          simp only [PR.ok.injEq] at h; subst h
          simp only
          obtain ⟨l, h1, h2⟩ := pushTypes_split (hG.extInst _ _ _ hops)
            (p := if G.nonSemantic i.extType = true then .VARIABLE_ID :: i.expected else i.expected)
          rw [h1]
          split
          · refine ⟨l ++ [.VARIABLE_ID], by simp, ?_⟩
            intro x hx
            rcases List.mem_append.1 hx with hx | hx
            · exact h2 x hx
            · simp at hx; subst hx; exact ordinary_VARIABLE_ID
          · exact ⟨l, rfl, h2⟩
        · split at h
          · simp at h
          · simp only [PR.ok.injEq] at h; subst h
            exact ⟨[.VARIABLE_ID], rfl, by simp [ordinary_VARIABLE_ID]⟩
  case h_13 =>
    split at h
    · rename_i p hp
      obtain ⟨l, rfl, h2⟩ := maskLoop_ok _ _ _ _ _ _ _ hp
      have hl : ∀ x ∈ l, ordinary x := by
        intro x hx
        obtain ⟨-, v, ops, h3, h4⟩ := h2 x hx
        exact hG.operand _ _ _ h3 x h4
      split at h
      · split at h
        · rename_i ops hops
          simp only [PR.ok.injEq] at h; subst h
          simp only
          obtain ⟨l2, h3, h4⟩ := pushTypes_split (hG.operand _ _ _ hops) (p := l ++ i.expected)
          refine ⟨l2 ++ l, by rw [h3]; simp, ?_⟩
          intro x hx
          rcases List.mem_append.1 hx with hx | hx
          · exact h4 x hx
          · exact hl x hx
        · simp only [PR.ok.injEq] at h; subst h; exact ⟨l, rfl, hl⟩
      · simp only [PR.ok.injEq] at h; subst h; exact ⟨l, rfl, hl⟩
    · simp at h
    · simp at h
    · simp at h
  case h_11 =>
    split at h
    · split at h <;> simp at h
    · rename_i ops hops
      simp only [PR.ok.injEq] at h; subst h
      exact pushTypes_split (hG.operand _ _ _ hops)
  case h_12 =>
    split at h
    · split at h <;> simp at h
    · rename_i ops hops
      simp only [PR.ok.injEq] at h; subst h
      exact pushTypes_split (hG.operand _ _ _ hops)
  all_goals
    (repeat' split at h
     all_goals first
       | (simp only [reduceCtorEq] at h; done)
       | (simp only [PR.ok.injEq] at h; subst h; exact ⟨[], rfl, by simp⟩)
       | (simp only [PR.ok.injEq] at h; subst h; exact ⟨[], rfl, by simp, rfl⟩))

theorem effect_extType {G : Grammar} {unk swap : Bool} {ws : List Word} {off op : Nat}
    {t : OT} {word : Word} {m : MState} {i : IState} {e : Eff}
    (himp : ∀ x v, m.imports x = some v → v ≠ 0)
    (h : effect G unk swap ws off op t word m i = .ok e) :
    (∀ x v, e.m.imports x = some v → v ≠ 0) ∧
    (t.kind = .id → isExtended op = true → (m.idx - off) % 65536 = 3 → e.i.extType ≠ 0) ∧
    (t.kind ≠ .id → e.i.extType = i.extType) := by
  unfold effect at h
  simp only at h
  split at h <;> rename_i hk <;> rw [hk] <;>
    simp only [reduceCtorEq, false_implies, and_true, true_implies, true_and, ne_eq, not_false_eq_true,
      not_true_eq_false]
  case h_9 =>
    have key : e.i = i ∧ e.m = m := by
      repeat' split at h
      all_goals first
        | (simp only [reduceCtorEq] at h; done)
        | (simp only [PR.ok.injEq] at h; subst h; rename_i h1 _; exact (setNumericInfo_ok h1).imp_right (·.1))
        | exact (setNumericInfo_ok h).imp_right (·.1)
    rw [key.1, key.2]
    exact ⟨himp, rfl⟩
  case h_3 =>
    split at h
    · simp at h
    · split at h
      · split at h
        · simp at h
        · rename_i v hv
          simp only [PR.ok.injEq] at h; subst h
          exact ⟨himp, fun _ _ => himp _ _ hv⟩
      · rename_i hc
        simp only [PR.ok.injEq] at h; subst h
        refine ⟨himp, fun h1 h2 => ?_⟩
        simp [h1, h2] at hc
  case h_10 =>
    split at h
    · simp at h
    · split at h
      · simp at h
      · split at h
        · split at h
          · simp at h
          · split at h
            · simp at h
            · rename_i hne _
              simp only [PR.ok.injEq] at h; subst h
              refine ⟨fun x v => ?_, rfl⟩
              simp only
              split
              · intro hv; simp only [Option.some.injEq] at hv; subst hv; exact hne
              · exact himp x v
        · simp only [PR.ok.injEq] at h; subst h; exact ⟨himp, rfl⟩
  all_goals
    (repeat' split at h
     all_goals first
       | (simp only [reduceCtorEq] at h; done)
       | (simp only [PR.ok.injEq] at h; subst h; exact ⟨himp, rfl⟩))

/-- What makes the `switch` safe. -/
theorem effect_no_fault {G : Grammar} (hG : GrammarOk G) {unk swap : Bool} {ws : List Word} {off op : Nat}
    {t : OT} {word : Word} {m : MState} {i : IState}
    (hext : t.kind = .extInstNum → isExtended op = true ∧ i.extType ≠ 0)
    (hspec : t.kind = .specConstOp → op = opSpecConstantOp)
    (htyped : t.kind = .typedLit → (op = opSwitch ∧ off + 1 < ws.length) ∨
      ((op = opConstant ∨ op = opSpecConstant) ∧ i.typeId ≠ 0))
    (hstr : t.kind = .str → op = opExtInstImport → i.resultId ≠ 0) :
    effect G unk swap ws off op t word m i ≠ .fault := by
  intro h
  have hn : ∀ ty, ty ≠ 0 → setNumericInfo ty m i ≠ .fault := by
    intro ty h0; unfold setNumericInfo; rw [if_neg h0]; repeat' split
    all_goals simp
  unfold effect at h
  simp only at h
  split at h <;> rename_i hk
  case h_5 =>
    obtain ⟨h1, h2⟩ := hext hk
    rw [h1, if_neg (by simp), if_neg h2] at h
    repeat' split at h
    all_goals simp at h
  case h_6 =>
    rw [if_neg (by simp [hspec hk])] at h
    split at h
    · simp at h
    · rename_i hx
      split at h
      · simp at h
      · rename_i ops hops
        split at h
        · rename_i hlt
          have := (hG.specConstOp _ _ (by simp at hx; exact hx.2) hops).1
          omega
        · simp at h
  case h_9 =>
    split at h
    · rename_i hop
      rcases htyped hk with ⟨-, h1⟩ | ⟨h1, -⟩
      · rw [List.getElem?_eq_getElem h1] at h
        simp only at h
        split at h
        · simp at h
        · split at h
          · simp at h
          · rename_i h0
            split at h
            · simp at h
            · split at h
              · split at h <;> simp at h
              · exact hn _ h0 h
      · rw [hop] at h1; simp [opSwitch, opConstant, opSpecConstant] at h1
    · rename_i hop
      rcases htyped hk with ⟨h1, -⟩ | ⟨h1, h2⟩
      · exact hop h1
      · split at h
        · rename_i h3; exact absurd h1 (by simp [h3])
        · exact hn _ h2 h
  case h_10 =>
    split at h
    · simp at h
    · split at h
      · simp at h
      · split at h
        · rename_i hop
          split at h
          · simp at h
          · rw [if_neg (hstr hk hop)] at h
            simp at h
        · simp at h
  case h_13 =>
    split at h
    · split at h
      · split at h <;> simp at h
      · simp at h
    · simp at h
    · simp at h
    · rename_i h1
      refine maskLoop_no_fault G t unk 32 _ _ (by omega) ?_ h1
      intro j hj
      exact BitVec.getLsbD_of_ge _ _ hj
  all_goals
    (repeat' split at h
     all_goals simp only [reduceCtorEq] at h)

theorem parseOperand_no_fault {G : Grammar} {unk swap : Bool} {ws : List Word} {off op : Nat} {t : OT}
    {m : MState} {i : IState}
    (he : m.idx < ws.length → ∀ w, effect G unk swap ws off op t w m i ≠ .fault) :
    parseOperand G unk swap ws off op t m i ≠ .fault := by
  intro h
  unfold parseOperand at h
  split at h
  · simp at h
  · rename_i hlt
    rw [List.getElem?_eq_getElem (by omega)] at h
    simp only at h
    split at h
    · simp at h
    · simp at h
    · rename_i h1; exact he (by omega) _ h1
    · rename_i e h1
      have hk : t.kind ≠ .unhandled := by
        intro hk; unfold effect at h1; simp only [hk] at h1; simp at h1
      simp only [recorded_concrete t hk] at h
      simp only [Bool.not_true, Bool.false_eq_true, if_false] at h
      split at h
      · simp at h
      · unfold slice at h
        rw [if_pos (by omega)] at h
        simp at h

/-- Where the parser is inside the fixed part of a special instruction. -/
inductive Stage (op off : Nat) (m : MState) (i : IState) : Prop
  | sp (l : List OT) (k : Nat) (s : List OT) (hl : (op, l) ∈ special) (hk : k ≤ l.length)
      (he : i.expected = l.drop k ++ s) (hs : ∀ x ∈ s, ordinary x)
      (hidx : k < l.length → m.idx = off + 1 + k)
      (hidx2 : op = 21 ∨ op = 22 → off + 1 + k ≤ m.idx)
      (hT : .TYPE_ID ∈ l.take k → i.typeId ≠ 0) (hR : .RESULT_ID ∈ l.take k → i.resultId ≠ 0)
      (hE : isExtended op = true → k = 3 → i.extType ≠ 0)
  | sw (h : op = opSwitch) (he : ∀ x ∈ i.expected, swOk x)
  | other (he : ∀ x ∈ i.expected, ordinary x) (h1 : op ≠ 11) (h2 : op ≠ 21) (h3 : op ≠ 22)

theorem special_facts : ∀ q ∈ special, ∀ k, (h : k < q.2.length) →
    (q.2[k].isVariable = false) ∧
    ((q.2[k].kind = .typeId ∨ q.2[k].kind = .resultId ∨ q.2[k].kind = .id ∨ q.2[k].kind = .litInt ∨
      q.2[k].kind = .str ∨ q.2[k].kind = .typedLit) ∨ k + 1 = q.2.length) ∧
    ((q.2[k].kind ≠ .typedLit ∧ q.2[k].kind ≠ .str) ∨ k + 1 = q.2.length) ∧
    (q.2[k].kind = .extInstNum → isExtended q.1 = true ∧ k = 3) ∧
    (q.2[k].kind = .specConstOp → q.1 = opSpecConstantOp) ∧
    (q.2[k].kind = .typedLit → (q.1 = opConstant ∨ q.1 = opSpecConstant) ∧ .TYPE_ID ∈ q.2.take k) ∧
    (q.2[k].kind = .str → q.1 = opExtInstImport → .RESULT_ID ∈ q.2.take k) ∧
    (isExtended q.1 = true → k = 2 → q.2[k].kind = .id) ∧
    (q.1 = 21 ∨ q.1 = 22 → q.2[k].kind ≠ .typedLit ∧ q.2[k].kind ≠ .str) ∧
    (q.2[k].isOptional = false) := by
  decide

theorem special_import : ∀ q ∈ special, q.1 = opExtInstImport → .RESULT_ID ∈ q.2 := by decide
theorem special_length : ∀ q ∈ special, (q.1 = 21 → q.2.length = 3) ∧ (q.1 = 22 → q.2.length = 2) := by decide

theorem takeFirst_cons {t : OT} {p : Pattern} (h : t.isVariable = false) :
    takeFirst (t :: p) = some (t, p) := by
  simp only [takeFirst]
  rcases expandOnce_eq t p with ⟨h1, -⟩ | ⟨_, _, _, h1, _⟩
  · rw [h1]
  · simp [h] at h1

theorem stage_no_fault {G : Grammar} (hG : GrammarOk G) {unk swap : Bool} {ws : List Word} {off op : Nat}
    {t : OT} {m : MState} {i : IState} {p : Pattern} (hpos : off < m.idx) (hst : Stage op off m i)
    (ht : takeFirst i.expected = some (t, p)) :
    parseOperand G unk swap ws off op t m { i with expected := p } ≠ .fault := by
  apply parseOperand_no_fault
  intro hlt w
  cases hst with
  | sp l k s hl hk he hs hidx hidx2 hT hR hE =>
    rcases Nat.lt_or_ge k l.length with hk' | hk'
    · obtain ⟨f1, f2, f3, f4, f5, f6, f7, f8, f9, f10⟩ := special_facts _ hl k hk'
      simp only at f1 f2 f3 f4 f5 f6 f7 f8 f9
      rw [he, List.drop_eq_getElem_cons hk', List.cons_append, takeFirst_cons f1] at ht
      simp only [Option.some.injEq, Prod.mk.injEq] at ht
      obtain ⟨rfl, rfl⟩ := ht
      apply effect_no_fault hG
      · intro h; exact ⟨(f4 h).1, hE (f4 h).1 (f4 h).2⟩
      · exact f5
      · intro h; exact Or.inr ⟨(f6 h).1, hT (f6 h).2⟩
      · intro h1 h2; exact hR (f7 h1 h2)
    · rw [he, List.drop_of_length_le hk', List.nil_append] at ht
      obtain ⟨⟨o1, o2, o3, -⟩, -⟩ := takeFirst_ordinary ht hs
      apply effect_no_fault hG
      · intro h; exact absurd h o1
      · intro h; exact absurd h o2
      · intro h; exact absurd h o3
      · intro _ h2
        apply hR
        rw [List.take_of_length_le hk']
        exact special_import _ hl h2
  | sw h he =>
    obtain ⟨h1, -⟩ := takeFirst_sw ht he
    apply effect_no_fault hG
    · intro h; rcases h1 with h1 | h1
      · exact absurd h h1.1
      · subst h1; simp [OT.kind] at h
    · intro h; rcases h1 with h1 | h1
      · exact absurd h h1.2.1
      · subst h1; simp [OT.kind] at h
    · intro _; exact Or.inl ⟨h, by omega⟩
    · intro _ h2; rw [h] at h2; simp [opSwitch, opExtInstImport] at h2
  | other he h1 h2 h3 =>
    obtain ⟨⟨o1, o2, o3, -⟩, -⟩ := takeFirst_ordinary ht he
    apply effect_no_fault hG
    · intro h; exact absurd h o1
    · intro h; exact absurd h o2
    · intro h; exact absurd h o3
    · intro _ h4; exact absurd h4 h1

theorem stage_step {G : Grammar} (hG : GrammarOk G) {unk swap : Bool} {ws : List Word} {off op : Nat}
    {t : OT} {m m' : MState} {i i' : IState} {p : Pattern} (hpos : off < m.idx)
    (himp : ∀ x v, m.imports x = some v → v ≠ 0) (hst : Stage op off m i)
    (ht : takeFirst i.expected = some (t, p))
    (h : parseOperand G unk swap ws off op t m { i with expected := p } = .ok (m', i')) :
    Stage op off m' i' ∧ ∀ x v, m'.imports x = some v → v ≠ 0 := by
  obtain ⟨raw, e, hraw, he', hle, rfl, rfl⟩ := parseOperand_inv h
  have ho := effect_ok he'
  obtain ⟨el, x1, x2, x3⟩ := effect_expected hG he'
  obtain ⟨y1, y2, y3⟩ := effect_extType himp he'
  simp only at x1 y2 y3
  refine ⟨?_, y1⟩
  have hTkeep : i.typeId ≠ 0 → e.i.typeId ≠ 0 := by
    intro h0
    have := ho.typeId
    split at this
    · rename_i h1
      rw [this]
      exact (ho.nwId (by rw [h1]; rfl)).2
    · rw [this]; exact h0
  have hRkeep : i.resultId ≠ 0 → e.i.resultId ≠ 0 := by
    intro h0
    have := ho.result
    split at this
    · rename_i h1
      rw [this.1]
      exact (ho.nwId (by rw [h1]; rfl)).2
    · rw [this.1]; exact h0
  cases hst with
  | sp l k s hl hk he hs hidx hidx2 hT hR hE =>
    rcases Nat.lt_or_ge k l.length with hk' | hk'
    · obtain ⟨f1, f2, f3, f4, f5, f6, f7, f8, f9, f10⟩ := special_facts _ hl k hk'
      simp only at f1 f2 f3 f4 f5 f6 f7 f8 f9
      rw [he, List.drop_eq_getElem_cons hk', List.cons_append, takeFirst_cons f1] at ht
      simp only [Option.some.injEq, Prod.mk.injEq] at ht
      obtain ⟨htt, rfl⟩ := ht
      rw [htt] at f1 f2 f3 f4 f5 f6 f7 f8 f9
      have htake : l.take (k + 1) = l.take k ++ [t] := by
        rw [List.take_succ_eq_append_getElem hk', htt]
      have hidx' := hidx hk'
      -- the pushed types can be moved to the ordinary part
      have hexp : e.i.expected = l.drop (k + 1) ++ (el ++ s) ∨ e.i.expected = l.drop (k + 1) ++ s := by
        rcases f2 with f2 | f2
        · right; rw [x1, x3 f2]; simp
        · left; rw [x1, List.drop_of_length_le (by omega)]; simp
      have hnw : e.nwords = 1 ∨ k + 1 = l.length := by
        rcases f3 with f3 | f3
        · exact Or.inl (ho.nwPlain f3.1 f3.2)
        · exact Or.inr f3
      have gT : .TYPE_ID ∈ l.take (k + 1) → e.i.typeId ≠ 0 := by
        intro h1
        rw [htake] at h1
        rcases List.mem_append.1 h1 with h1 | h1
        · exact hTkeep (hT h1)
        · simp only [List.mem_singleton] at h1
          have := ho.typeId
          rw [if_pos h1.symm] at this
          rw [this]
          exact (ho.nwId (by rw [← h1]; rfl)).2
      have gR : .RESULT_ID ∈ l.take (k + 1) → e.i.resultId ≠ 0 := by
        intro h1
        rw [htake] at h1
        rcases List.mem_append.1 h1 with h1 | h1
        · exact hRkeep (hR h1)
        · simp only [List.mem_singleton] at h1
          have := ho.result
          rw [if_pos h1.symm] at this
          rw [this.1]
          exact (ho.nwId (by rw [← h1]; rfl)).2
      have gE : isExtended op = true → k + 1 = 3 → e.i.extType ≠ 0 := by
        intro h1 h2
        refine y2 (f8 h1 (by omega)) h1 ?_
        rw [hidx']
        omega
      have gI : k + 1 < l.length → m.idx + e.nwords = off + 1 + (k + 1) := by
        intro h1; rcases hnw with h2 | h2 <;> omega
      have gI2 : op = 21 ∨ op = 22 → off + 1 + (k + 1) ≤ m.idx + e.nwords := by
        intro h1
        have := ho.nwPlain (f9 h1).1 (f9 h1).2
        have := hidx2 h1
        omega
      rcases hexp with hexp | hexp
      · refine .sp l (k + 1) (el ++ s) hl (by omega) hexp ?_ gI gI2 gT gR gE
        intro x hx
        rcases List.mem_append.1 hx with hx | hx
        · exact x2 x hx
        · exact hs x hx
      · exact .sp l (k + 1) s hl (by omega) hexp hs gI gI2 gT gR gE
    · rw [he, List.drop_of_length_le hk', List.nil_append] at ht
      obtain ⟨-, o4⟩ := takeFirst_ordinary ht hs
      have hkk : k = l.length := by omega
      refine .sp l k (el ++ p) hl hk ?_ ?_ (by omega) ?_ (fun h => hTkeep (hT h)) (fun h => hRkeep (hR h)) ?_
      · simp only; rw [x1, List.drop_of_length_le hk']; simp
      · intro x hx
        rcases List.mem_append.1 hx with hx | hx
        · exact x2 x hx
        · exact o4 x hx
      · intro h1; have := hidx2 h1; simp only; omega
      · intro h1 h2
        exfalso
        have : ∀ q ∈ special, isExtended q.1 = true → q.2.length ≠ 3 := by decide
        exact this _ hl h1 (by simp only; omega)
  | sw h he =>
    obtain ⟨-, h2⟩ := takeFirst_sw ht he
    refine .sw h ?_
    intro x hx
    simp only at hx
    rw [x1] at hx
    rcases List.mem_append.1 hx with hx | hx
    · exact Or.inl (x2 x hx)
    · exact h2 x hx
  | other he h1 h2 h3 =>
    obtain ⟨-, h4⟩ := takeFirst_ordinary ht he
    refine .other ?_ h1 h2 h3
    intro x hx
    simp only at hx
    rw [x1] at hx
    rcases List.mem_append.1 hx with hx | hx
    · exact x2 x hx
    · exact h4 x hx

theorem operandLoop_stage {G : Grammar} (hG : GrammarOk G) {unk swap : Bool} {ws : List Word}
    {off op stop : Nat} {m : MState} {i : IState} (hpos : off < m.idx)
    (himp : ∀ x v, m.imports x = some v → v ≠ 0) (hst : Stage op off m i) :
    match operandLoop G unk swap ws off op stop m i with
    | .ok m' i' => Stage op off m' i' ∧ ∀ x v, m'.imports x = some v → v ≠ 0
    | .retry m' i' => ∀ x v, m'.imports x = some v → v ≠ 0
    | .err _ => True
    | .fault => False := by
  fun_induction operandLoop G unk swap ws off op stop m i with
  | case1 => trivial
  | case2 => trivial
  | case3 m i h t p ht h2 => exact himp
  | case4 m i h t p ht h2 => exact absurd h2 (stage_no_fault hG hpos hst ht)
  | case5 m i h t p ht m' i' hp ih =>
    have hprog := parseOperand_progress hp
    obtain ⟨h1, h2⟩ := stage_step hG hpos himp hst ht hp
    exact ih (by omega) h2 h1
  | case6 => exact ⟨hst, himp⟩

theorem start_stage {G : Grammar} (hG : GrammarOk G) {op : Nat} {ops : List OT}
    (h : G.opcode op = some ops) {m : MState} {c : List Word} :
    Stage op m.idx { m with idx := m.idx + 1 } ⟨0, 0, 0, c, [], pushTypes ops []⟩ := by
  by_cases hsp : ∃ l, (op, l) ∈ special
  · obtain ⟨l, hl⟩ := hsp
    obtain ⟨r, h1, h2⟩ := hG.opcode op ops h l hl
    refine .sp l 0 r hl (Nat.zero_le _) ?_ h2 ?_ ?_ ?_ ?_ ?_
    · simp only [pushTypes, List.drop_zero, List.append_nil, h1]
    all_goals simp
  · by_cases hsw : op = opSwitch
    · subst hsw
      refine .sw rfl ?_
      intro x hx
      simp only [pushTypes, List.append_nil] at hx
      exact hG.switch ops h x (List.mem_filter.1 hx).1
    · refine .other ?_ ?_ ?_ ?_
      · intro x hx
        simp only [pushTypes, List.append_nil] at hx
        exact hG.other op ops h hsw (fun l hl => hsp ⟨l, hl⟩) x (List.mem_filter.1 hx).1
      · rintro rfl; exact hsp ⟨[.RESULT_ID, .LITERAL_STRING], by decide⟩
      · rintro rfl; exact hsp ⟨[.RESULT_ID, .LITERAL_INTEGER, .LITERAL_INTEGER], by decide⟩
      · rintro rfl; exact hsp ⟨[.RESULT_ID, .LITERAL_INTEGER], by decide⟩

/-- At the end of an instruction the fixed positions exist. -/
theorem stage_fixed {op off : Nat} {m : MState} {i : IState} (hst : Stage op off m i)
    (hme : moreExpected i.expected = false) :
    (op = 21 → off + 4 ≤ m.idx) ∧ (op = 22 → off + 3 ≤ m.idx) := by
  cases hst with
  | sp l k s hl hk he hs hidx hidx2 hT hR hE =>
    have hlen := special_length _ hl
    simp only at hlen
    rcases Nat.lt_or_ge k l.length with hk' | hk'
    · exfalso
      have := (special_facts _ hl k hk').2.2.2.2.2.2.2.2.2
      simp only at this
      rw [he, List.drop_eq_getElem_cons hk', List.cons_append] at hme
      simp [moreExpected, this] at hme
    · refine ⟨fun h => ?_, fun h => ?_⟩
      · have := hidx2 (Or.inl h); have := hlen.1 h; omega
      · have := hidx2 (Or.inr h); have := hlen.2 h; omega
  | sw h he => subst h; simp [opSwitch]
  | other he h1 h2 h3 => exact ⟨fun h => absurd h h2, fun h => absurd h h3⟩

theorem recordNumberType_reads {G : Grammar} {swap : Bool} {ws : List Word} {off op wc n : Nat}
    {r : Word} {m : MState} (hw : off + wc ≤ n) (hn : n ≤ ws.length)
    (h21 : op = 21 → 4 ≤ wc) (h22 : op = 22 → 3 ≤ wc) :
    recordNumberType G swap (ws.take n) off op wc r m = recordNumberType G swap ws off op wc r m ∧
    recordNumberType G swap ws off op wc r m ≠ none := by
  have g2 : op = 21 ∨ op = 22 → (ws.take n)[off + 2]? = ws[off + 2]? ∧ ∃ w, ws[off + 2]? = some w := by
    intro h
    have : 3 ≤ wc := by rcases h with h | h <;> first | (have := h21 h; omega) | (have := h22 h; omega)
    exact ⟨List.getElem?_take_of_lt (by omega), _, List.getElem?_eq_getElem (by omega)⟩
  have g3 : 4 ≤ wc → (ws.take n)[off + 3]? = ws[off + 3]? ∧ ∃ w, ws[off + 3]? = some w := by
    intro h
    exact ⟨List.getElem?_take_of_lt (by omega), _, List.getElem?_eq_getElem (by omega)⟩
  unfold recordNumberType
  by_cases hg : G.generatesType op = true
  · rw [if_pos hg, if_pos hg]
    by_cases h1 : op = opTypeInt
    · rw [if_pos h1, if_pos h1]
      obtain ⟨a1, w1, a2⟩ := g2 (Or.inl h1)
      obtain ⟨b1, w2, b2⟩ := g3 (h21 h1)
      rw [a1, b1, a2, b2]
      simp
    · rw [if_neg h1, if_neg h1]
      by_cases h2 : op = opTypeFloat
      · rw [if_pos h2, if_pos h2]
        obtain ⟨a1, w1, a2⟩ := g2 (Or.inr h2)
        rw [a1, a2]
        simp only
        by_cases h3 : wc ≥ 4
        · rw [if_pos h3, if_pos h3]
          obtain ⟨b1, w2, b2⟩ := g3 h3
          rw [b1, b2]
          simp
        · rw [if_neg h3, if_neg h3]
          simp
      · rw [if_neg h2, if_neg h2]
        simp
  · rw [if_neg hg, if_neg hg]
    simp

/-- Everything about one instruction under `GrammarOk`. -/
theorem parseInstruction_safe {G : Grammar} (hG : GrammarOk G) {unk swap : Bool} {ws : List Word}
    {m : MState} (hlt : m.idx < ws.length) (himp : ∀ x v, m.imports x = some v → v ≠ 0) :
    parseInstruction G unk swap ws m ≠ .fault ∧
    ∀ m' x, parseInstruction G unk swap ws m = .inst m' x → ∀ y v, m'.imports y = some v → v ≠ 0 := by
  have hunk : ∀ {m1 : MState} {wc op : Nat} {a b : Word} {e : Nat},
      (∀ x v, m1.imports x = some v → v ≠ 0) →
      emitAsUnknown swap ws m.idx wc op a b e m1 ≠ .fault ∧
      ∀ m' x, emitAsUnknown swap ws m.idx wc op a b e m1 = .inst m' x →
        ∀ y v, m'.imports y = some v → v ≠ 0 := by
    intro m1 wc op a b e h1
    refine ⟨?_, ?_⟩
    · unfold emitAsUnknown slice
      split
      · simp
      · rw [if_pos (by omega)]; simp
    · intro m' x h
      obtain ⟨-, rfl, -⟩ := emitAsUnknown_inv h
      exact h1
  have hraw := List.getElem?_eq_getElem hlt
  unfold parseInstruction
  rw [hraw]
  simp only
  split
  · simp
  · rename_i hwc
    split
    · split
      · exact hunk himp
      · simp
    · rename_i ops hops
      have hst := operandLoop_stage hG (unk := unk) (swap := swap) (ws := ws)
        (stop := m.idx + wordCount (fixW swap ws[m.idx])) (i := ⟨0, 0, 0, [fixW swap ws[m.idx]], [], pushTypes ops []⟩)
        (m := { m with idx := m.idx + 1 }) (Nat.lt_succ_self _) himp (start_stage hG hops)
      have hl := operandLoop_inv (G := G) (unk := unk) (op := opcodeOf (fixW swap ws[m.idx]))
          (stop := m.idx + wordCount (fixW swap ws[m.idx]))
          (startInv (swap := swap) (p := pushTypes ops []) hraw)
          (by have := wordCount_le (fixW swap ws[m.idx]); omega)
      split
      · simp
      · rename_i h1; rw [h1] at hst; simp at hst
      · rename_i h1; rw [h1] at hst; exact hunk hst
      · rename_i m1 i1 h1
        rw [h1] at hst hl
        simp only at hst hl
        refine ⟨?_, ?_⟩
        · intro hf
          unfold finishInst at hf
          split at hf
          · simp at hf
          · rename_i hme
            have hme : moreExpected i1.expected = false := by simpa using hme
            have hfix := stage_fixed hst.1 hme
            split at hf
            · simp at hf
            · rename_i hidx
              have hidx : m.idx + wordCount (fixW swap ws[m.idx]) = m1.idx := by simpa using hidx
              have hle := hl.le
              have hconv := hl.conv
              have hlen : swap = true → i1.conv.length = wordCount (fixW swap ws[m.idx]) := by
                intro hs
                rw [if_pos hs] at hconv
                rw [hconv]
                simp only [List.length_map, List.length_take, List.length_drop]
                omega
              split at hf
              · rename_i hc
                simp at hc
                exact hc.2 (hlen hc.1).symm
              · split at hf
                · rename_i hc
                  simp at hc
                  rw [hc.1] at hconv
                  simp at hconv
                  rw [hconv] at hc
                  simp at hc
                · unfold slice at hf
                  rw [if_pos (by omega)] at hf
                  simp only at hf
                  have := (recordNumberType_reads (G := G) (swap := swap) (ws := ws) (off := m.idx)
                    (op := opcodeOf (fixW swap ws[m.idx])) (wc := wordCount (fixW swap ws[m.idx]))
                    (n := ws.length) (r := i1.resultId) (m := m1) (by omega) (Nat.le_refl _)
                    (fun h => by have := hfix.1 h; omega) (fun h => by have := hfix.2 h; omega)).2
                  split at hf
                  · exact this (by assumption)
                  · simp at hf
        · intro m' x h
          obtain ⟨-, -, -, -, h5, -⟩ := finishInst_inst h
          rw [(recordNumberType_idx h5).2.2]
          exact hst.2

end Verif.Binary
