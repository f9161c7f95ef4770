import Verif.Asm.Count
import Verif.Asm.Names
/-!
C14: the ids of an assembly are those of the sequence of names it uses.
-/
set_option linter.unusedSimpArgs false
set_option linter.unusedVariables false
namespace Verif.Asm
open Verif.ParseNumber (Text)
open Verif.Binary (OT Pattern pushTypes takeFirst)
open Spec

/-- The ids change by uses of valid names only. -/
def Reach (P : List Nat) (a b : Ids) : Prop :=
  ∃ names rs, (∀ n ∈ names, ValidName n) ∧ assignAll P a names = some (rs, b)

theorem Reach.refl (P : List Nat) (a : Ids) : Reach P a a := ⟨[], [], by simp, rfl⟩

theorem assignAll_append (P : List Nat) (a b c : Ids) (n m : List Text) (r q : List Nat)
    (h1 : assignAll P a n = some (r, b)) (h2 : assignAll P b m = some (q, c)) :
    assignAll P a (n ++ m) = some (r ++ q, c) := by
  induction n generalizing a r with
  | nil => cases h1; exact h2
  | cons x n ih =>
    unfold assignAll at h1
    simp only [List.cons_append]
    unfold assignAll
    split at h1
    · cases h1
    · split at h1
      · cases h1
      · rename_i rs ids2 he2
        simp only [Option.some.injEq, Prod.mk.injEq] at h1
        obtain ⟨rfl, rfl⟩ := h1
        rw [ih _ _ he2]
        rfl

theorem Reach.trans {P : List Nat} {a b c : Ids} (h1 : Reach P a b) (h2 : Reach P b c) : Reach P a c := by
  obtain ⟨n, r, hn, h1⟩ := h1
  obtain ⟨m, q, hm, h2⟩ := h2
  refine ⟨n ++ m, r ++ q, ?_, assignAll_append P a b c n m r q h1 h2⟩
  intro x hx
  rcases List.mem_append.mp hx with h | h
  · exact hn x h
  · exact hm x h

theorem encodeId_reach {P : List Nat} {t : OT} {s : Text} {st st' : S}
    (h : encodeId P t s st = .ok st') : Reach P st.ctx.ids st'.ctx.ids := by
  unfold encodeId at h
  split at h
  · rename_i name
    split at h
    · cases h
    · rename_i hv
      split at h
      · cases h
      · rename_i id ids ha
        have hr : Reach P st.ctx.ids ids := by
          refine ⟨[name], [id], ?_, ?_⟩
          · simp only [List.mem_singleton, forall_eq]
            unfold ValidName
            simpa using hv
          · simp [assignAll, ha]
        dsimp only at h
        generalize (if t = OT.TYPE_ID then _ else _ : Inst) = j at h
        split at h
        · split at h
          · cases h
          · cases h
          · cases h; exact hr
        · cases h; exact hr
  · cases h

theorem encodeStr_reach {G : AGrammar} {t : OT} {s : Text} {st st' : S}
    (h : encodeStr G t s st = .ok st') : st'.ctx.ids = st.ctx.ids := by
  unfold encodeStr at h
  split at h
  · cases h
  · split at h <;> cases h
  · split at h
    · dsimp only at h
      split at h
      · cases h
      · split at h
        · cases h
        · split at h
          · cases h
          · split at h
            · cases h; rfl
            · cases h
    · split at h
      · cases h; rfl
      · cases h
  · cases h

theorem encodeNum_reach {G : AGrammar} {t : OT} {s : Text} {ty : IdType} {st st' : S}
    (h : encodeNum G t s ty st = .ok st') : st'.ctx.ids = st.ctx.ids := by
  unfold encodeNum at h
  split at h
  · cases h; rfl
  all_goals cases h

theorem encodeTyped_reach {G : AGrammar} {t : OT} {s : Text} {st st' : S}
    (h : encodeTyped G t s st = .ok st') : st'.ctx.ids = st.ctx.ids := by
  unfold encodeTyped at h
  split at h
  · dsimp only at h
    split at h
    · exact encodeNum_reach h
    · cases h
  · split at h
    · split at h
      · cases h
      · dsimp only at h
        split at h
        · exact encodeNum_reach h
        · cases h
    · exact encodeNum_reach h

theorem reach_of_eq {P : List Nat} {a b : Ids} (h : b = a) : Reach P a b := by subst h; exact Reach.refl ..

theorem encodeBasic_reach {G : AGrammar} {P : List Nat} {t : OT} {s : Text} {st st' : S}
    (h : encodeBasic G P t s st = .ok st') : Reach P st.ctx.ids st'.ctx.ids := by
  unfold encodeBasic at h
  split at h
  · exact encodeId_reach h
  · apply reach_of_eq
    split at h
    · cases h; rfl
    · split at h
      · cases h
      · split at h
        · cases h; rfl
        · cases h
  · apply reach_of_eq
    split at h
    · cases h
    · split at h
      · cases h
      · split at h
        · cases h
        · cases h; rfl
  · exact reach_of_eq (encodeNum_reach h)
  · exact reach_of_eq (encodeNum_reach h)
  · exact reach_of_eq (encodeNum_reach h)
  · exact reach_of_eq (encodeTyped_reach h)
  · exact reach_of_eq (encodeStr_reach h)
  · apply reach_of_eq
    split at h
    · cases h
    · cases h; rfl
  · cases h
  · apply reach_of_eq
    split at h
    · cases h
    · cases h; rfl

theorem encodeOperand_reach {G : AGrammar} {P : List Nat} {t : OT} {s : Text} {st st' : S}
    (h : encodeOperand G P t s st = .ok st') : Reach P st.ctx.ids st'.ctx.ids := by
  unfold encodeOperand at h
  split at h
  · split at h
    · cases h; exact Reach.refl ..
    · cases h
  · split at h
    · dsimp only at h
      split at h
      · rename_i st1 heq
        have hpre : Reach P st.ctx.ids st1.ctx.ids := by
          split at heq
          · exact encodeBasic_reach heq
          · split at heq
            · exact encodeBasic_reach heq
            · exact encodeBasic_reach heq
        cases h
        split <;> exact hpre
      · cases h
      · cases h
      · cases h
    · exact encodeBasic_reach h

theorem immLoop_reach (G : AGrammar) (P : List Nat) (ctx : Ctx) (i : Inst) (s : Text) :
    ∀ c j r, immLoop G P ctx i s = .ok (c, j, r) → Reach P ctx.ids c.ids := by
  fun_induction immLoop G P ctx i s <;> intro c j r h <;> try (cases h; done)
  case case1 => cases h; exact Reach.refl ..
  case case3 => cases h; exact Reach.refl ..
  case case6 =>
    rename_i s s1 ha _ w r' hw hne _ st hst ih
    exact (encodeOperand_reach hst).trans (ih c j r h)

theorem unknownLoop_reach (G : AGrammar) (P : List Nat) (n : Nat) (ctx : Ctx) (i : Inst) (s : Text) :
    ∀ c j r, unknownLoop G P n ctx i s = .ok (c, j, r) → Reach P ctx.ids c.ids := by
  induction n generalizing ctx i s with
  | zero => intro c j r h; cases h; exact Reach.refl ..
  | succ n ih =>
    intro c j r h
    unfold unknownLoop at h
    split at h
    · cases h
    · split at h
      · cases h
      · cases h
      · generalize hg : getWord _ = q at h
        obtain ⟨w, r'⟩ := q
        simp only at h
        split at h
        · cases h
        · split at h
          · rename_i st he
            exact (encodeOperand_reach he).trans (ih _ _ _ c j r h)
          all_goals cases h

theorem operandLoop_reach (G : AGrammar) (P : List Nat) (result : Text) (st : S) (s : Text) :
    match operandLoop G P result st s with
    | .done st' _ => Reach P st.ctx.ids st'.ctx.ids
    | .early st' _ => Reach P st.ctx.ids st'.ctx.ids
    | _ => True := by
  fun_induction operandLoop G P result st s <;> try trivial
  case case1 => exact Reach.refl ..
  case case2 st' s t p ht hr st2 he ih =>
    have hp := encodeId_reach he
    revert ih
    split
    · exact hp.trans
    · exact hp.trans
    · exact id
  case case6 => exact Reach.refl ..
  case case9 => exact Reach.refl ..
  case case12 =>
    rename_i st s t p ht hr s1 ha hs w r hw hne st2 he ih
    have hp := encodeOperand_reach he
    revert ih
    split
    · exact hp.trans
    · exact hp.trans
    · exact id
  case case13 => exact Reach.refl ..

theorem recordTypeDefinition_ids {G : AGrammar} {ctx ctx' : Ctx} {i : Inst}
    (h : recordTypeDefinition G ctx i = .ok ctx') : ctx'.ids = ctx.ids := by
  unfold recordTypeDefinition at h
  split at h
  · cases h
  · split at h
    · cases h
    · dsimp only at h
      repeat' split at h
      all_goals first | (cases h; done) | (cases h; rfl)

theorem finish_ids {G : AGrammar} {d : OpDesc} {ctx ctx' : Ctx} {i i' : Inst}
    (h : finish G d ctx i = .ok (ctx', i')) : ctx'.ids = ctx.ids := by
  unfold finish at h
  dsimp only at h
  generalize hq : (if G.generatesType i.opcode then _ else _ : R Ctx) = q at h
  cases q <;> simp only [reduceCtorEq] at h
  rename_i c
  split at h
  · cases h
  · cases h
    split at hq
    · exact recordTypeDefinition_ids hq
    · split at hq
      · split at hq
        · cases hq
        · split at hq
          · cases hq
            split <;> rfl
          · cases hq
      · cases hq; rfl

theorem encodeOpcode_reach {G : AGrammar} {P : List Nat} {ctx ctx' : Ctx} {s r : Text} {i : Inst}
    (h : encodeOpcode G P ctx s = .ok (ctx', i, r)) : Reach P ctx.ids ctx'.ids := by
  unfold encodeOpcode at h
  split at h
  · unfold encodeStartingWithImmediate at h
    generalize hg : getWord s = q at h
    obtain ⟨w, r0⟩ := q
    simp only at h
    split at h
    · exact immLoop_reach _ _ _ _ _ _ _ _ h
    · cases h
  · split at h
    · cases h
    · cases h
    · cases h
    · split at h
      · split at h
        · cases h
        · unfold encodeOpUnknown at h
          repeat' split at h
          all_goals first | (cases h; done) | exact unknownLoop_reach _ _ _ _ _ _ _ _ _ h
      · split at h
        · cases h
        · rename_i res name r0 _ _ _ d hd
          split at h
          · cases h
          · split at h
            · cases h
            · have hl := operandLoop_reach G P res ⟨ctx, ⟨[0], d.opcode, 0, 0⟩, d.operands⟩ r0
              split at h
              · rename_i st rest heq
                rw [heq] at hl
                simp only at hl
                split at h
                · rename_i hf
                  simp only [R.ok.injEq, Prod.mk.injEq] at h
                  obtain ⟨rfl, rfl, rfl⟩ := h
                  rw [finish_ids hf]
                  exact hl
                all_goals cases h
              · rename_i st rest heq
                rw [heq] at hl
                simp only [R.ok.injEq, Prod.mk.injEq] at h
                obtain ⟨rfl, rfl, rfl⟩ := h
                exact hl
              all_goals cases h

theorem assembleLoop_reach {G : AGrammar} {P : List Nat} (fuel : Nat) (ctx : Ctx) (s : Text)
    (out : List Inst) (ctx' : Ctx) (is : List Inst)
    (h : assembleLoop G P fuel ctx s out = .ok (ctx', is)) : Reach P ctx.ids ctx'.ids := by
  induction fuel generalizing ctx s out with
  | zero => cases h
  | succ fuel ih =>
    unfold assembleLoop at h
    split at h
    · rename_i ctx1 i r he
      have hr := encodeOpcode_reach he
      split at h
      · simp only [R.ok.injEq, Prod.mk.injEq] at h
        obtain ⟨rfl, rfl⟩ := h
        exact hr
      · exact hr.trans (ih _ _ _ h)
    all_goals cases h

theorem run_reach {G : AGrammar} {P : List Nat} {s : Text} {ctx : Ctx} {is : List Inst}
    (h : run G P s = .ok (ctx, is)) : Reach P .init ctx.ids := by
  unfold run at h
  dsimp only at h
  split at h
  · cases h; exact Reach.refl ..
  · exact assembleLoop_reach _ _ _ _ _ _ h

theorem mem_numericIds_assigned {P : List Nat} {names : List Text} : ∀ {a b : Ids} {rs : List Nat},
    assignAll P a names = some (rs, b) → ∀ e ∈ b.named, e ∈ a.named ∨ e.1 ∈ names := by
  induction names with
  | nil => intro a b rs h e he; cases h; exact .inl he
  | cons x names ih =>
    intro a b rs h e he
    unfold assignAll at h
    split at h
    · cases h
    · rename_i id ids1 ha
      split at h
      · cases h
      · rename_i rs1 ids2 hb
        cases h
        rcases ih hb e he with h | h
        · unfold assignOrGet at ha
          split at ha
          · cases ha; exact .inl h
          · split at ha
            · cases ha; exact .inl h
            · split at ha
              · cases ha
              · cases ha
                rcases List.mem_cons.mp h with rfl | h
                · exact .inr (by simp)
                · exact .inl h
        · exact .inr (List.mem_cons_of_mem _ h)

/-- C14 for whole texts: when the assembler succeeds, the ids in the module are those
    given to some sequence of (valid) names, starting from nothing, and the bound in the
    header is the one that goes with it; the preserved numbers are none, or the
    values of the numerals among the names of a first pass over the text. -/
theorem assemble_ids {G : AGrammar} {version : Word} {b : Bool} {s : Text} {words : List Word}
    (h : assemble G version b s = .ok words) :
    ∃ (P : List Nat) (names : List Text) (rs : List Nat) (ids : Ids),
      (∀ n ∈ names, ValidName n) ∧ assignAll P .init names = some (rs, ids) ∧
      words[3]? = some (BitVec.ofNat 32 ids.bound) ∧
      (b = false → P = []) ∧
      (b = true → ∃ first : List Text, (∀ n ∈ first, ValidName n) ∧ ∀ v ∈ P, ∃ n ∈ first, Numeric n v) := by
  unfold assemble at h
  dsimp only at h
  split at h
  · rename_i p hp
    split at h
    · rename_i ctx is hr
      cases h
      obtain ⟨names, rs, hn, ha⟩ := run_reach hr
      refine ⟨p, names, rs, ctx.ids, hn, ha, rfl, ?_, ?_⟩
      · intro hb
        subst hb
        simpa using hp.symm
      · intro hb
        subst hb
        simp only [if_true] at hp
        split at hp
        · rename_i c _ hrun
          cases hp
          obtain ⟨first, rs', hf, hfa⟩ := run_reach hrun
          refine ⟨first, hf, ?_⟩
          intro v hv
          unfold numericIds at hv
          obtain ⟨e, he, hev⟩ := List.mem_filterMap.mp hv
          rcases mem_numericIds_assigned hfa e he with h | h
          · cases h
          · exact ⟨e.1, h, (parseU32_iff (hf _ h) v).mp hev⟩
        all_goals cases hp
    all_goals cases h
  all_goals cases h

end Verif.Asm
