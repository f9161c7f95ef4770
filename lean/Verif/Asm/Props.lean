import Verif.Asm.Count
import Verif.Asm.Names
import Verif.Asm.Ids
/-!
# Properties of the assembler: C12 (Strings.lean), C14 (Names.lean, Ids.lean), C15 (Count.lean)

Here: the word count theorem for plain texts, examples and deviations.
-/
set_option linter.unusedSimpArgs false
set_option linter.unusedVariables false
namespace Verif.Asm
open Verif.ParseNumber (Text)
open Verif.Binary (OT Pattern pushTypes takeFirst)
open Spec

/-! ### Positions are suffixes of the text -/

theorem advanceLine_suffix (s : Text) : advanceLine s <:+ s := by
  induction s with
  | nil => simp [advanceLine]
  | cons c s ih =>
    unfold advanceLine
    split
    · exact List.suffix_refl _
    · split
      · exact List.suffix_cons ..
      · exact ih.trans (List.suffix_cons ..)

theorem advanceTo_suffix (s : Text) : advanceTo s <:+ s := by
  fun_induction advanceTo s with
  | case1 => exact List.suffix_refl _
  | case2 => exact List.suffix_refl _
  | case3 s _ ih => exact ih.trans ((advanceLine_suffix s).trans (List.suffix_cons ..))
  | case4 c s _ _ _ ih => exact ih.trans (List.suffix_cons ..)
  | case5 => exact List.suffix_refl _

theorem advance_suffix {s r : Text} (h : advance s = some r) : r <:+ s := by
  rw [advance_eq h]; exact advanceTo_suffix s

theorem getWordFrom_append (q e : Bool) (s : Text) :
    (getWordFrom q e s).1 ++ (getWordFrom q e s).2 = s := by
  induction s generalizing q e with
  | nil => rfl
  | cons c s ih =>
    unfold getWordFrom
    split
    · simp [ih]
    · split
      · simp [ih]
      · split
        · simp
        · split
          · simp
          · simp [ih]

theorem getWord_append {s w r : Text} (h : getWord s = (w, r)) : w ++ r = s := by
  have := getWordFrom_append false false s
  unfold getWord at h
  rw [h] at this
  exact this

theorem getWord_suffix {s w r : Text} (h : getWord s = (w, r)) : r <:+ s := ⟨w, getWord_append h⟩

theorem operandLoop_suffix (G : AGrammar) (P : List Nat) (result : Text) (st : S) (s : Text) :
    match operandLoop G P result st s with
    | .done _ r => r <:+ s
    | .early _ r => r <:+ s
    | _ => True := by
  fun_induction operandLoop G P result st s <;> try trivial
  case case1 => exact List.suffix_refl _
  case case6 => exact List.nil_suffix
  case case9 => rename_i ha _ _; exact advance_suffix ha
  case case12 =>
    rename_i st s t p ht hr s1 ha hs w r hw hne st2 he ih
    revert ih
    split
    · intro ih; exact ih.trans ((getWord_suffix hw).trans (advance_suffix ha))
    · intro ih; exact ih.trans ((getWord_suffix hw).trans (advance_suffix ha))
    · exact id
  case case13 =>
    rename_i st s t p ht hr s1 ha hs w r hw hne he ho
    exact advance_suffix ha

theorem readOpcode_suffix {s res name r : Text} (h : readOpcode s = .ok (res, name, r)) : r <:+ s := by
  unfold readOpcode at h
  generalize hg : getWord s = q at h
  obtain ⟨w, r0⟩ := q
  have h0 := getWord_suffix hg
  simp only at h
  split at h
  · simp only [R.ok.injEq, Prod.mk.injEq] at h
    obtain ⟨rfl, rfl, rfl⟩ := h
    exact h0
  · split at h
    · cases h
    · split at h
      · cases h
      · split at h
        · cases h
        · rename_i r1 hr
          have h1 := (advance_suffix hr).trans h0
          generalize hg1 : getWord r1 = q at h
          obtain ⟨eq, r2⟩ := q
          have h2 := (getWord_suffix hg1).trans h1
          simp only at h
          split at h
          · cases h
          · split at h
            · cases h
            · rename_i r3 hr2
              have h3 := (advance_suffix hr2).trans h2
              generalize hg3 : getWord r3 = q at h
              obtain ⟨nm, r4⟩ := q
              have h4 := (getWord_suffix hg3).trans h3
              simp only at h
              split at h
              · simp only [R.ok.injEq, Prod.mk.injEq] at h
                obtain ⟨rfl, rfl, rfl⟩ := h
                exact h4
              · cases h

/-- The text after an instruction that is neither an immediate nor `OpUnknown`. -/
theorem encodeOpcode_suffix {G : AGrammar} {P : List Nat} {ctx ctx' : Ctx} {s r : Text} {i : Inst}
    (h : encodeOpcode G P ctx s = .ok (ctx', i, r)) (h1 : s.head? ≠ some '!')
    (h2 : ¬ "OpUnknown".toList <:+: s) : r <:+ s := by
  unfold encodeOpcode at h
  rw [if_neg h1] at h
  split at h
  · cases h
  · cases h
  · cases h
  · rename_i res name r0 hro
    have hs := readOpcode_suffix hro
    split at h
    · rename_i hn
      exfalso
      apply h2
      subst hn
      obtain ⟨hb, _⟩ := readOpcode_begins hro
      cases hb with
      | plain _ hg => exact ⟨[], _, getWord_append hg⟩
      | result ha _ hb hc hd _ he =>
        exact (List.IsInfix.trans ⟨[], _, getWord_append he⟩
          ((advance_suffix hd).trans ((getWord_suffix hc).trans
            ((advance_suffix hb).trans (getWord_suffix ha)))).isInfix)
    · split at h
      · cases h
      · split at h
        · cases h
        · split at h
          · cases h
          · rename_i d _ _ _
            have hl := operandLoop_suffix G P res ⟨ctx, ⟨[0], d.opcode, 0, 0⟩, d.operands⟩ r0
            split at h
            · rename_i st rest heq
              rw [heq] at hl
              split at h
              · simp only [R.ok.injEq, Prod.mk.injEq] at h
                obtain ⟨_, _, rfl⟩ := h
                exact hl.trans hs
              all_goals cases h
            · rename_i st rest heq
              rw [heq] at hl
              simp only [R.ok.injEq, Prod.mk.injEq] at h
              obtain ⟨_, _, rfl⟩ := h
              exact hl.trans hs
            all_goals cases h

theorem assembled_suffix {G : AGrammar} {P : List Nat} {ctx ctx' : Ctx} {s : Text} {l : List (Text × Inst)}
    (h : Assembled G P ctx s l ctx') (h1 : '!' ∉ s) (h2 : ¬ "OpUnknown".toList <:+: s) :
    ∀ e ∈ l, e.1 <:+ s := by
  have hhead : ∀ {s : Text}, '!' ∉ s → s.head? ≠ some '!' := by
    intro s h1 hs; exact h1 (List.mem_of_mem_head? hs)
  induction h with
  | last he ha =>
    intro e hm
    simp only [List.mem_singleton] at hm
    subst hm
    exact List.suffix_refl _
  | cons he ha hA ih =>
    intro e hm
    rcases List.mem_cons.mp hm with rfl | hm
    · exact List.suffix_refl _
    · have hs := (advance_suffix ha).trans (encodeOpcode_suffix he (hhead h1) h2)
      exact (ih (fun hm => h1 (hs.subset hm)) (fun hi => h2 (hi.trans hs.isInfix)) e hm).trans hs

/-- C15 for plain texts: if neither `!` nor `OpUnknown` occurs in the text, the module is a
    header of five words and instructions, each of which has at most 65535 words, the
    number of its words in the upper half of its first word and the opcode of the named
    instruction in the lower half. -/
theorem assemble_tiling {G : AGrammar} (hG : NarrowOpcodes G) {version : Word} {b : Bool} {s : Text}
    {words : List Word} (h : assemble G version b s = .ok words) (h1 : '!' ∉ s)
    (h2 : ¬ "OpUnknown".toList <:+: s) :
    ∃ (hd : List Word) (is : List (List Word)), hd.length = 5 ∧ words = hd ++ is.flatten ∧
      ∀ i ∈ is, ∃ t name d, t <:+ s ∧ Begins t name ∧ G.opcodeByName (name.drop 2) = some d ∧
        CountOk i d.opcode := by
  obtain ⟨P, hd, l, ctx, k1, k2, k3, k4⟩ := assemble_counts hG h
  refine ⟨hd, l.map (·.2.words), k1, by rw [k2, List.flatMap_def], ?_⟩
  intro i hi
  obtain ⟨e, he, rfl⟩ := List.mem_map.mp hi
  have hsuf : e.1 <:+ s := by
    rcases k3 with ⟨rfl, _⟩ | k3
    · cases he
    · have hs := advanceTo_suffix s
      exact (assembled_suffix k3 (fun hm => h1 (hs.subset hm)) (fun hi => h2 (hi.trans hs.isInfix)) e he).trans hs
  rcases k4 e he with h | ⟨k, hk⟩ | ⟨name, d, hb, hd, hc⟩
  · exact absurd (hsuf.subset (List.mem_of_mem_head? h)) h1
  · exact absurd (List.IsInfix.trans ⟨[], _, getWord_append hk⟩ hsuf.isInfix) h2
  · exact ⟨e.1, name, d, hsuf, hb, hd, hc⟩

/-! ### A small grammar, to see the theorems at work -/

/-- A grammar with two instructions: `OpNop` and `OpName`. -/
def demo : AGrammar where
  opcodeByName n :=
    if n = "Nop".toList then some ⟨0, false, false, []⟩
    else if n = "Name".toList then some ⟨5, false, false, [.ID, .LITERAL_STRING]⟩
    else if n = "Label".toList then some ⟨248, true, false, [.RESULT_ID]⟩
    else none
  opcodeByNumber _ := none
  specOpByName _ := none
  operandByName _ _ := none
  operandByValue _ _ := none
  extInstByName _ _ := none
  extImport _ := 0
  nonSemantic _ := false
  generatesType _ := false
  fpEncoding _ := 0
  fpWidthOk _ _ := false
  encodeFloat _ _ _ := (.unsupported, [])

theorem demo_narrow : NarrowOpcodes demo := by
  intro name d h
  simp only [demo] at h
  split at h
  · cases h; decide
  · split at h
    · cases h; decide
    · split at h
      · cases h; decide
      · cases h

def words? : R (List Word) → Option (List Nat)
  | .ok w => some (w.map BitVec.toNat)
  | _ => none

theorem operandLoop_nil (G : AGrammar) (P : List Nat) (res : Text) (c : Ctx) (i : Inst) (s : Text) :
    operandLoop G P res ⟨c, i, []⟩ s = .done ⟨c, i, []⟩ s := by
  unfold operandLoop
  rfl

/-- One step of the loop, for operands read from the text. -/
theorem operandLoop_step {G : AGrammar} {P : List Nat} {res : Text} {st st' : S} {s s1 w r : Text} {t : OT}
    {p : Pattern} (h1 : takeFirst st.expected = some (t, p)) (h2 : ¬ (t = .RESULT_ID ∧ res ≠ []))
    (h3 : advance s = some s1) (h4 : isStartOfNewInst s1 = some false) (h5 : getWord s1 = (w, r))
    (h6 : w ≠ []) (h7 : encodeOperand G P t w { st with expected := p } = .ok st') :
    operandLoop G P res st s = operandLoop G P res st' r := by
  rw [operandLoop]
  simp [h1, h2, h3, h4, h5, h6, h7]
  grind

/-- A run of `OpName %x "abc"`, and the words it gives. -/
example : words? (assemble demo 0x10000#32 false "OpName %x \"abc\"".toList) =
    some [0x07230203, 0x10000, 0x70000, 2, 0, 0x30005, 1, 0x636261] := by
  have h1 : operandLoop demo [] [] ⟨.init, ⟨[0], 5, 0, 0⟩, [.ID, .LITERAL_STRING]⟩ " %x \"abc\"".toList =
      .done ⟨⟨⟨[("x".toList, 1)], 2, 2⟩, fun _ => none, fun _ => none, fun _ => none⟩,
        ⟨[0, 1, 0x636261], 5, 0, 0⟩, []⟩ [] := by
    rw [operandLoop_step (t := .ID) (p := [.LITERAL_STRING]) (s1 := "%x \"abc\"".toList) (w := "%x".toList)
      (r := " \"abc\"".toList) (st' := ⟨⟨⟨[("x".toList, 1)], 2, 2⟩, fun _ => none, fun _ => none,
        fun _ => none⟩, ⟨[0, 1], 5, 0, 0⟩, [.LITERAL_STRING]⟩) rfl (by decide) (by decide +kernel)
      (by decide +kernel) (by decide +kernel) (by decide) (by rfl)]
    rw [operandLoop_step (t := .LITERAL_STRING) (p := []) (s1 := "\"abc\"".toList) (w := "\"abc\"".toList)
      (r := []) (st' := ⟨⟨⟨[("x".toList, 1)], 2, 2⟩, fun _ => none, fun _ => none, fun _ => none⟩,
        ⟨[0, 1, 0x636261], 5, 0, 0⟩, []⟩) rfl (by decide) (by decide +kernel)
      (by decide +kernel) (by decide +kernel) (by decide) (by rfl)]
    exact operandLoop_nil ..
  have h2 : encodeOpcode demo [] .init "OpName %x \"abc\"".toList = .ok
      (⟨⟨[("x".toList, 1)], 2, 2⟩, fun _ => none, fun _ => none, fun _ => none⟩,
        ⟨[0x30005, 1, 0x636261], 5, 0, 0⟩, []) := by
    have hr : readOpcode "OpName %x \"abc\"".toList = .ok ([], "OpName".toList, " %x \"abc\"".toList) := by rfl
    unfold encodeOpcode
    rw [if_neg (by decide), hr]
    simp only
    rw [if_neg (by decide)]
    have hd : demo.opcodeByName (List.drop 2 "OpName".toList) = some ⟨5, false, false, [.ID, .LITERAL_STRING]⟩ := by rfl
    rw [hd]
    simp only [Bool.false_eq_true, false_and, if_false, ne_eq, not_true_eq_false, and_false, h1]
    rfl
  have ha : advanceTo "OpName %x \"abc\"".toList = "OpName %x \"abc\"".toList := by decide +kernel
  have hn : advance [] = none := by decide +kernel
  unfold assemble run
  simp only [Bool.false_eq_true, if_false, ha]
  rw [if_neg (by decide)]
  unfold assembleLoop
  rw [h2]
  simp only [hn]
  rfl

/-- The count of `OpUnknown` is what the text says, not what is there: with a string
    operand the module cannot be read back. -/
theorem opUnknown_count_wrong : words? (assemble demo 0x10000#32 false "OpUnknown(7, 2) \"abcd\"".toList) =
    some [0x07230203, 0x10000, 0x70000, 1, 0, 0x20007, 0x64636261, 0] := by decide +kernel

def isFault {α : Type} : R α → Bool
  | .fault => true
  | _ => false

/-- A text of one comma, or of one NUL, makes the assembler look at the first
    character of an empty word. -/
theorem comma_fault : isFault (assemble demo 0x10000#32 false [',']) = true ∧
    isFault (assemble demo 0x10000#32 false ['\x00']) = true := by decide +kernel

end Verif.Asm
