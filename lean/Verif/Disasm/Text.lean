import Verif.Disasm.Line
/-!
The text of a module: the lines of the instructions, with blank text between them.
-/
set_option linter.unusedSimpArgs false
set_option linter.unusedVariables false
namespace Verif.Disasm
open Verif.ParseNumber (Text NumberType)
open Verif.Binary (OT Grammar MState POperand parseInstruction)
open Verif.Asm hiding Inst Word
open Verif.Asm.Spec (Separated)
open Spec

/-! ## Single lines -/

theorem line_nil : Line [] := ⟨by simp, by simp⟩

theorem Spec.Line.append {a b : Text} (ha : Line a) (hb : Line b) : Line (a ++ b) :=
  ⟨by simp [ha.1, hb.1], by simp [ha.2, hb.2]⟩

theorem line_cons {c : Char} {s : Text} (h1 : c ≠ '\n') (h2 : c ≠ '\x00') (hs : Line s) : Line (c :: s) :=
  ⟨by simp [Ne.symm h1, hs.1], by simp [Ne.symm h2, hs.2]⟩

theorem line_of {s : Text} (p : Char → Prop) (h : ∀ c ∈ s, p c) (h1 : ¬ p '\n') (h2 : ¬ p '\x00') : Line s :=
  ⟨fun hc => h1 (h _ hc), fun hc => h2 (h _ hc)⟩

theorem line_dec (n : Nat) : Line (dec n) :=
  line_of (fun c => '0' ≤ c ∧ c ≤ '9') (dec_digits n) (by decide) (by decide)

theorem line_decInt (n : Int) : Line (decInt n) := by
  unfold decInt
  split
  · exact line_cons (by decide) (by decide) (line_dec _)
  · exact line_dec _

theorem line_spaces (n : Nat) : Line (spaces n) :=
  line_of (fun c => c = ' ') (fun c hc => (List.mem_replicate.1 hc).2) (by decide) (by decide)

theorem line_hex (n : Nat) : Line (hexOffset n) := by
  unfold hexOffset
  refine line_cons (by decide) (by decide) (line_cons (by decide) (by decide) (Line.append ?_ ?_))
  · exact line_of (fun c => c = '0') (fun c hc => (List.mem_replicate.1 hc).2) (by decide) (by decide)
  · refine line_of (fun c => ∃ d, d < 16 ∧ c = Nat.digitChar d) ?_ ?_ ?_
    · intro c hc
      unfold Nat.toDigits at hc
      have key : ∀ (f n : Nat) (acc : List Char), (∀ c ∈ acc, ∃ d, d < 16 ∧ c = Nat.digitChar d) →
          ∀ c ∈ Nat.toDigitsCore 16 f n acc, ∃ d, d < 16 ∧ c = Nat.digitChar d := by
        intro f
        induction f with
        | zero => intro n acc h; simpa [Nat.toDigitsCore] using h
        | succ f ih =>
          intro n acc h
          rw [Nat.toDigitsCore]
          have h' : ∀ c ∈ Nat.digitChar (n % 16) :: acc, ∃ d, d < 16 ∧ c = Nat.digitChar d := by
            intro c hc
            rcases List.mem_cons.1 hc with rfl | hc
            · exact ⟨n % 16, Nat.mod_lt _ (by omega), rfl⟩
            · exact h c hc
          split
          · exact h'
          · exact ih _ _ h'
      exact key _ _ _ (by simp) c hc
    · rintro ⟨d, h1, h2⟩
      have : ∀ d : Fin 16, '\n' ≠ Nat.digitChar d := by decide
      exact this ⟨d, h1⟩ h2
    · rintro ⟨d, h1, h2⟩
      have : ∀ d : Fin 16, '\x00' ≠ Nat.digitChar d := by decide
      exact this ⟨d, h1⟩ h2

theorem line_maskNames {N : Names} (hN : ∀ t v n, N.operand t v = some n → Line n) {t : OT} :
    ∀ (n k : Nat) (rem : Word) (e : Bool) (r : Text), maskNames N t n k rem e = some r → Line r := by
  intro n
  induction n with
  | zero =>
    intro k rem e r h
    rw [maskNames] at h
    split at h
    · cases h; exact line_nil
    · cases h
  | succ n ih =>
    intro k rem e r h
    rw [maskNames] at h
    split at h
    · cases h; exact line_nil
    · simp only at h
      split at h
      · split at h
        · cases h
        · rename_i name hn
          obtain ⟨r1, h1, rfl⟩ := Option.map_eq_some_iff.1 h
          refine Line.append ?_ (ih _ _ _ _ h1)
          split
          · exact line_cons (by decide) (by decide) (hN _ _ _ hn)
          · exact hN _ _ _ hn
      · exact ih _ _ _ _ h

theorem line_escape {s : Text} (h : Line s) : Line (escape s) := by
  induction s with
  | nil => exact line_nil
  | cons c s ih =>
    have h1 : c ≠ '\n' := fun hc => h.1 (by simp [hc])
    have h2 : c ≠ '\x00' := fun hc => h.2 (by simp [hc])
    have h3 : Line s := ⟨fun hc => h.1 (by simp [hc]), fun hc => h.2 (by simp [hc])⟩
    unfold escape
    split
    · exact line_cons (by decide) (by decide) (line_cons h1 h2 (ih h3))
    · exact line_cons h1 h2 (ih h3)

theorem charOf_inj {a : BitVec 8} {c : Char} (h : charOf a = c) : a.toNat = c.toNat := by
  rw [← h, charOf_toNat]

theorem line_emit {G : Grammar} {A : AGrammar} {N : Names} (ag : Agree G A N) {x : Binary.Inst} {o : POperand}
    (hok : OperandOk A N x o)
    (hs : o.type = .LITERAL_STRING → 0x0a#8 ∉ (StringLit.makeString (operandWords x o)).str) {t : Text}
    (h : emitOperand G N x o = some t) : Line t := by
  unfold emitOperand at h
  split at h
  · cases h
  rename_i w hw
  have hnum : emitNumeric N x o = some t → Line t := by
    intro h
    unfold emitNumeric at h
    split at h
    · cases h; exact line_nil
    split at h
    · cases h; exact line_nil
    split at h
    · cases h; exact line_nil
    rw [hw] at h
    simp only at h
    have fl : ∀ ws, ws = operandWords x o → o.nkind = .floating → Line (N.float o.width.toNat o.enc ws) := by
      rintro ws rfl hk
      exact line_of (fun c => c ∈ "0123456789abcdefABCDEFxXpPinIN.+-_".toList) (hok.float hk).2.2.2
        (by decide) (by decide)
    have hdrop : x.words.drop o.offset = w :: x.words.drop (o.offset + 1) := by
      have := List.getElem?_eq_some_iff.1 hw
      rw [List.drop_eq_getElem_cons this.1, this.2]
    split at h
    · rename_i h1
      split at h
      · cases h; exact line_decInt _
      · cases h; exact line_dec _
      · rename_i hk
        cases h
        exact fl _ (by unfold operandWords; rw [hdrop, h1]; rfl) hk
      · cases h; exact line_nil
    · split at h
      · cases h
      rename_i w1 hw1
      split at h
      · cases h; exact line_decInt _
      · cases h; exact line_dec _
      · rename_i hk
        cases h
        have hdrop1 : x.words.drop (o.offset + 1) = w1 :: x.words.drop (o.offset + 1 + 1) := by
          have := List.getElem?_eq_some_iff.1 hw1
          rw [List.drop_eq_getElem_cons this.1, this.2]
        refine fl _ ?_ hk
        unfold operandWords
        rw [hdrop, hdrop1, show o.nwords = 2 by omega]; rfl
      · cases h; exact line_nil
  split at h
  · cases h
  · cases h; exact line_cons (by decide) (by decide) (line_dec _)
  · cases h; exact line_cons (by decide) (by decide) (line_dec _)
  · cases h; exact line_cons (by decide) (by decide) (line_dec _)
  · cases h; exact line_cons (by decide) (by decide) (line_dec _)
  · split at h
    · rename_i n hn; cases h; exact ag.extInstLine _ _ _ hn
    · split at h
      · cases h; exact line_dec _
      · cases h
  · exact ag.opcodeLine _ _ h
  · exact hnum h
  · exact hnum h
  · exact hnum h
  · rename_i ht
    unfold emitString at h
    have h10 := hs ht
    split at h
    · cases h
    rename_i s hf
    cases h
    unfold operandWords at h10
    rw [hf] at h10
    have h0 := makeString_nul ((x.words.drop o.offset).take o.nwords)
    rw [hf] at h0
    simp only [StringLit.Decoded.str] at h0 h10
    unfold quote
    refine line_cons (by decide) (by decide) (Line.append (line_escape ?_) (line_cons (by decide) (by decide) line_nil))
    constructor
    · intro hc
      obtain ⟨b, hb, he⟩ := List.mem_map.1 hc
      have := charOf_inj he
      have : b = 0x0a#8 := BitVec.eq_of_toNat_eq (by rw [this]; rfl)
      exact h10 (this ▸ hb)
    · intro hc
      obtain ⟨b, hb, he⟩ := List.mem_map.1 hc
      have := charOf_inj he
      have : b = 0#8 := BitVec.eq_of_toNat_eq (by rw [this]; rfl)
      exact h0 (this ▸ hb)
  · split at h
    · unfold emitMask at h
      split at h
      · cases h
        cases hn : N.operand o.type 0 with
        | none => exact line_nil
        | some n => exact ag.operandLine _ _ _ hn
      · exact line_maskNames ag.operandLine _ _ _ _ _ h
    · split at h
      · exact ag.operandLine _ _ _ h
      · cases h

/-! ## The lines of instructions -/

/-- What does not depend on the assembler. -/
structure Printed (G : Grammar) (N : Names) (x : Binary.Inst) (name T : Text) : Prop where
  hname : N.opcode x.opcode = some name
  nameOk : OpNameOk name
  emit : emitOperands G N x x.operands = some T
  all : x.operands.take x.numOperands = x.operands
  target : x.opcode = opName ∨ x.opcode = opDecorate → x.operands ≠ [] ∧ ∀ o ∈ x.operands, o.type ≠ .RESULT_ID
  sep : ∀ k, Sep k → Sep (T ++ k)

theorem LineOk.printed {G : Grammar} {A : AGrammar} {N : Names} {P : List Nat} {x : Binary.Inst} {m2 : MState}
    {ctx ctx' : Ctx} {name T : Text} {inst : Asm.Inst} {raw : Word} {tg : List (Bool × Word)}
    (h : LineOk G A N P x m2 ctx ctx' name T inst raw tg) : Printed G N x name T :=
  ⟨h.hname, h.nameOk, h.emit, h.all, h.target, h.sep⟩

theorem emit_each {G : Grammar} {N : Names} {x : Binary.Inst} :
    ∀ {os : List POperand} {T : Text}, emitOperands G N x os = some T → ∀ o ∈ os, o.type ≠ .RESULT_ID →
      ∃ t, emitOperand G N x o = some t := by
  intro os
  induction os with
  | nil => intro T _ o ho; cases ho
  | cons a os ih =>
    intro T h o ho hne
    rw [emitOperands] at h
    split at h
    · rename_i ha
      rcases List.mem_cons.1 ho with rfl | ho
      · exact absurd ha hne
      · exact ih h o ho hne
    · split at h
      · rename_i t1 t2 e1 e2
        rcases List.mem_cons.1 ho with rfl | ho
        · exact ⟨_, e1⟩
        · exact ih e2 o ho hne
      · cases h

theorem emit_word {G : Grammar} {N : Names} {x : Binary.Inst} {o : POperand} {t : Text}
    (h : emitOperand G N x o = some t) : ∃ w, x.words[o.offset]? = some w := by
  unfold emitOperand at h
  split at h
  · cases h
  · exact ⟨_, by assumption⟩

theorem decoration_some {G : Grammar} {A : AGrammar} {N : Names} (ag : Agree G A N) {opt : Options}
    {x : Binary.Inst} (hf : Faithful A N opt x) (hc : opt.comment = true) (hop : x.opcode = opDecorate) :
    ∀ (os : List POperand) (b : Bool), (∀ o ∈ os, o ∈ x.operands ∧ ∃ t, emitOperand G N x o = some t) →
      ∃ t, decorationText G N x os b = some t ∧ Line t := by
  intro os
  induction os with
  | nil => intro b _; exact ⟨[], rfl, line_nil⟩
  | cons o os ih =>
    intro b h
    obtain ⟨h1, t1, e1⟩ := h o (List.mem_cons_self ..)
    obtain ⟨t2, e2, l2⟩ := ih false (fun o ho => h o (List.mem_cons_of_mem _ ho))
    refine ⟨(if b then [] else [' ']) ++ t1 ++ t2, by rw [decorationText, e1, e2], ?_⟩
    refine Line.append (Line.append ?_ (line_emit ag (hf.operands o h1) (hf.comment hc hop o h1) e1)) l2
    split
    · exact line_nil
    · exact line_cons (by decide) (by decide) line_nil

def CommentsOk (c : Word → Option Text) : Prop := ∀ w t, c w = some t → Line t

theorem note_some {G : Grammar} {A : AGrammar} {N : Names} (ag : Agree G A N) {opt : Options}
    {x : Binary.Inst} {name T : Text} (hp : Printed G N x name T) (hf : Faithful A N opt x)
    (hc : opt.comment = true) {c : Word → Option Text} (hcs : CommentsOk c) :
    ∃ c', noteDecoration G N x c = some c' ∧ CommentsOk c' := by
  unfold noteDecoration
  by_cases hop : x.opcode = opDecorate
  · rw [if_pos hop, hp.all]
    obtain ⟨t1, t2⟩ := hp.target (Or.inr hop)
    have each : ∀ o ∈ x.operands, ∃ t, emitOperand G N x o = some t :=
      fun o ho => emit_each hp.emit o ho (t2 o ho)
    cases hos : x.operands with
    | nil => exact absurd hos t1
    | cons o os =>
      obtain ⟨t, et⟩ := each o (by rw [hos]; exact List.mem_cons_self ..)
      obtain ⟨w, hw⟩ := emit_word et
      obtain ⟨d, hd, hl⟩ := decoration_some (G := G) ag hf hc hop os true (fun o ho => by
        have : o ∈ x.operands := by rw [hos]; exact List.mem_cons_of_mem _ ho
        exact ⟨this, each o this⟩)
      simp only [hw, hd]
      split
      · exact ⟨c, rfl, hcs⟩
      · refine ⟨_, rfl, ?_⟩
        intro y t ht
        simp only at ht
        split at ht
        · cases ht
          refine Line.append ?_ hl
          split
          · exact line_nil
          · refine Line.append ?_ (line_cons (by decide) (by decide) (line_cons (by decide) (by decide) line_nil))
            cases hcw : c w with
            | none => exact line_nil
            | some t => exact hcs _ _ hcw
        · exact hcs _ _ ht
  · rw [if_neg hop]; exact ⟨c, rfl, hcs⟩

theorem line_join {a b : Text} (ha : Line a) (hb : Line b) : Line (joinComment a b) := by
  unfold joinComment
  split
  · exact hb
  · exact Line.append ha (line_cons (by decide) (by decide) (line_cons (by decide) (by decide) hb))

theorem comments_some {G : Grammar} {N : Names} {opt : Options} {x : Binary.Inst} {name T : Text}
    (hp : Printed G N x name T) (offset : Nat) {c : Word → Option Text} (hcs : CommentsOk c) :
    ∃ t, comments opt x offset c = some t ∧ Line t := by
  unfold comments
  simp only
  have ha : Line (if opt.byteOffset then hexOffset offset else []) := by
    split
    · exact line_hex _
    · exact line_nil
  generalize (if opt.byteOffset then hexOffset offset else []) = a at ha
  have key : ∀ o : Option Text, (∃ b, o = some b ∧ Line b) → ∃ t, (o.map fun b =>
      if opt.comment ∧ x.resultId ≠ 0 then
        match c x.resultId with
        | none => b
        | some t => joinComment b t
      else b) = some t ∧ Line t := by
    rintro o ⟨b, rfl, hl⟩
    refine ⟨_, rfl, ?_⟩
    split
    · split
      · exact hl
      · rename_i t ht; exact line_join hl (hcs _ _ ht)
    · exact hl
  apply key
  by_cases hop : opt.comment ∧ x.opcode = opName
  · rw [if_pos hop, hp.all]
    obtain ⟨t1, t2⟩ := hp.target (Or.inl hop.2)
    cases hos : x.operands with
    | nil => exact absurd hos t1
    | cons o os =>
      have ho : o ∈ x.operands := by rw [hos]; exact List.mem_cons_self ..
      obtain ⟨t, et⟩ := emit_each hp.emit o ho (t2 o ho)
      obtain ⟨w, hw⟩ := emit_word et
      simp only [List.head?_cons, hw]
      refine ⟨_, rfl, line_join ha ?_⟩
      exact line_cons (by decide) (by decide) (line_cons (by decide) (by decide) (line_cons (by decide)
        (by decide) (line_cons (by decide) (by decide) (line_dec _))))
  · rw [if_neg hop]; exact ⟨a, rfl, ha⟩

/-- Blank text that may follow a word. -/
structure Gap (g : Text) : Prop where
  blank : Blank g
  sep : ∀ k, Separated (g ++ k)

theorem gap_cons {c : Char} {g : Text} (hc : c = ' ' ∨ c = '\n') (hg : Blank g) : Gap (c :: g) := by
  refine ⟨Blank.cons (by rcases hc with rfl | rfl <;> rfl) hg, ?_⟩
  intro k d hd
  simp only [List.cons_append, List.head?_cons, Option.some.injEq] at hd
  subst hd
  rcases hc with rfl | rfl <;> simp

theorem Gap.append {g b : Text} (hg : Gap g) (hb : Blank b) : Gap (g ++ b) :=
  ⟨hg.blank.append hb, fun k => by rw [List.append_assoc]; exact hg.sep _⟩

theorem gap_lineEnd (line : Text) {c : Text} (hc : Line c) (a : Nat) : Gap (lineEnd line c a).1 := by
  unfold lineEnd
  split
  · simp only
    generalize visibleLength false line = len
    obtain ⟨n, hn⟩ : ∃ n, (max (max (len + 2) a) 50 + 3) / 4 * 4 - len = n + 1 := by
      refine ⟨(max (max (len + 2) a) 50 + 3) / 4 * 4 - len - 1, ?_⟩
      have : len + 2 ≤ max (max (len + 2) a) 50 := by omega
      omega
    rw [hn]
    show Gap (' ' :: (spaces n ++ _))
    refine gap_cons (Or.inl rfl) ((Blank.spaces n).append ?_)
    have := Blank.comment (t := ' ' :: c) (line_cons (by decide) (by decide) hc).1 (line_cons (by decide) (by decide) hc).2
    simpa using this
  · exact gap_cons (Or.inr rfl) Blank.nil

theorem blank_section (opt : Options) {t : Text} (ht : Line t) : Blank (section_ opt t) := by
  unfold section_
  refine Blank.cons rfl ((Blank.spaces _).append ?_)
  have h := line_cons (c := ' ') (by decide) (by decide) ht
  have := Blank.comment h.1 h.2
  simpa using this

theorem emitSection_text (G : Grammar) (N : Names) (opt : Options) (x : Binary.Inst) (s : St) :
    ∃ b, Blank b ∧ (emitSection G N opt x s).out = s.out ++ b ∧
      (emitSection G N opt x s).idComments = s.idComments := by
  unfold emitSection
  simp only
  have step : ∀ (p : Prop) [Decidable p] (s : St) (t : Text) (f : St → St),
      (f s).out = s.out ++ section_ opt t → (f s).idComments = s.idComments → Line t →
      ∃ b, Blank b ∧ (if p then f s else s).out = s.out ++ b ∧ (if p then f s else s).idComments = s.idComments := by
    intro p _ s t f h1 h2 ht
    by_cases hp : p
    · rw [if_pos hp]; exact ⟨_, blank_section opt ht, h1, h2⟩
    · rw [if_neg hp]; exact ⟨[], Blank.nil, by simp, rfl⟩
  obtain ⟨b1, k1, o1, c1⟩ := step (opt.comment = true ∧ x.opcode = opFunction) s
    ("Function ".toList ++ dec x.resultId.toNat)
    (fun s => { s with out := s.out ++ section_ opt ("Function ".toList ++ dec x.resultId.toNat) }) rfl rfl
    (Line.append ⟨by decide, by decide⟩ (line_dec _))
  try simp only at o1 c1
  generalize hs1 : (if opt.comment = true ∧ x.opcode = opFunction then
    { s with out := s.out ++ section_ opt ("Function ".toList ++ dec x.resultId.toNat) } else s) = s1 at o1 c1
  obtain ⟨b2, k2, o2, c2⟩ := step (opt.comment = true ∧ s1.decoration = false ∧ N.isDecoration x.opcode = true) s1
    "Annotations".toList (fun s => { s with out := s.out ++ section_ opt "Annotations".toList, decoration := true })
    rfl rfl ⟨by decide, by decide⟩
  try simp only at o2 c2
  generalize hs2 : (if opt.comment = true ∧ s1.decoration = false ∧ N.isDecoration x.opcode = true then
    { s1 with out := s1.out ++ section_ opt "Annotations".toList, decoration := true } else s1) = s2 at o2 c2
  obtain ⟨b3, k3, o3, c3⟩ := step (opt.comment = true ∧ s2.debug = false ∧ N.isDebug x.opcode = true) s2
    "Debug Information".toList (fun s => { s with out := s.out ++ section_ opt "Debug Information".toList, debug := true })
    rfl rfl ⟨by decide, by decide⟩
  try simp only at o3 c3
  generalize hs3 : (if opt.comment = true ∧ s2.debug = false ∧ N.isDebug x.opcode = true then
    { s2 with out := s2.out ++ section_ opt "Debug Information".toList, debug := true } else s2) = s3 at o3 c3
  obtain ⟨b4, k4, o4, c4⟩ := step (opt.comment = true ∧ s3.types = false ∧ G.generatesType x.opcode = true) s3
    "Types, variables and constants".toList
    (fun s => { s with out := s.out ++ section_ opt "Types, variables and constants".toList, types := true })
    rfl rfl ⟨by decide, by decide⟩
  refine ⟨b1 ++ b2 ++ b3 ++ b4, ((k1.append k2).append k3).append k4, ?_, ?_⟩
  · rw [o4, o3, o2, o1]; simp
  · rw [c4, c3, c2, c1]

theorem linePrefix_core (opt : Options) (r : Word) (name T : Text) :
    ∃ n, linePrefix opt r ++ 'O' :: 'p' :: (name ++ T) = spaces n ++ coreText r name T := by
  unfold linePrefix coreText
  by_cases hr : r = 0
  · exact ⟨opt.width, by rw [if_neg (by simpa using hr), if_neg (by simpa using hr)]; simp⟩
  · rw [if_pos hr, if_pos hr]
    by_cases hi : opt.indent = true
    · exact ⟨opt.width - 3 - (dec r.toNat).length - 1, by rw [if_pos hi]; simp⟩
    · exact ⟨0, by rw [if_neg hi]; simp [spaces]⟩

/-- The text an instruction adds. -/
theorem handle_text {G : Grammar} {A : AGrammar} {N : Names} (ag : Agree G A N) {opt : Options}
    (hunk : opt.unk = false) {x : Binary.Inst} {name T : Text} (hp : Printed G N x name T)
    (hf : Faithful A N opt x) {s : St} (hs : CommentsOk s.idComments) :
    ∃ s' b e, handleInstruction G N opt x s = some s' ∧ CommentsOk s'.idComments ∧ Blank b ∧ Gap e ∧
      s'.out = s.out ++ (b ++ coreText x.resultId name T ++ e) := by
  obtain ⟨b, k1, o1, c1⟩ := emitSection_text G N opt x s
  generalize hs1 : emitSection G N opt x s = s1 at o1 c1
  have hc1 : CommentsOk s1.idComments := by rw [c1]; exact hs
  have hline : emitLine G N opt x = some (linePrefix opt x.resultId ++ 'O' :: 'p' :: (name ++ T)) := by
    unfold emitLine; rw [hp.hname, hp.all, hp.emit]
  obtain ⟨c', hc', ok'⟩ : ∃ c', (if opt.comment = true then noteDecoration G N x s1.idComments
      else some s1.idComments) = some c' ∧ CommentsOk c' := by
    by_cases hc : opt.comment = true
    · rw [if_pos hc]; exact note_some ag hp hf hc hc1
    · rw [if_neg hc]; exact ⟨_, rfl, hc1⟩
  obtain ⟨t, ht, lt⟩ := comments_some (opt := opt) hp s1.offset ok'
  obtain ⟨n, hn⟩ := linePrefix_core opt x.resultId name T
  have hE : emitInstruction G N opt x s1 = some { s1 with
      out := s1.out ++ (linePrefix opt x.resultId ++ 'O' :: 'p' :: (name ++ T)) ++
        (lineEnd (linePrefix opt x.resultId ++ 'O' :: 'p' :: (name ++ T)) t s1.align).1,
      align := (lineEnd (linePrefix opt x.resultId ++ 'O' :: 'p' :: (name ++ T)) t s1.align).2,
      idComments := c' } := by
    unfold emitInstruction
    rw [hunk]
    simp only [Bool.false_and, Bool.false_eq_true, if_false, hline, hc', ht]
  unfold handleInstruction
  rw [hs1, hE]
  refine ⟨_, b ++ spaces n, _, rfl, ok', k1.append (Blank.spaces n), gap_lineEnd (linePrefix opt x.resultId ++ 'O' :: 'p' :: (name ++ T)) lt s1.align, ?_⟩
  simp only
  rw [o1, hn]
  simp

theorem blank_line {t : Text} (ht : Line t) : Blank (';' :: (t ++ ['\n'])) := Blank.comment ht.1 ht.2

theorem blank_header {N : Names} (hg : ∀ g, Line (N.generator g)) (h : Binary.Header) : Blank (headerText N h) := by
  have lit : ∀ {s : Text} {t : Text}, Line s → Line t → Line (s ++ t) := fun a b => Line.append a b
  unfold headerText
  simp only
  generalize (h.generator >>> 16).toNat = tool
  generalize ((h.version >>> 16) &&& 0xff#32).toNat = v1
  generalize ((h.version >>> 8) &&& 0xff#32).toNat = v2
  generalize (h.generator &&& 0xffff#32).toNat = g2
  have l1 : Line " SPIR-V".toList := ⟨by decide, by decide⟩
  have l2 : Line (" Version: ".toList ++ (dec v1 ++ (".".toList ++ dec v2))) :=
    lit ⟨by decide, by decide⟩ (lit (line_dec _) (lit ⟨by decide, by decide⟩ (line_dec _)))
  have l3 : Line (" Generator: ".toList ++ (N.generator tool ++
      ((if N.generator tool = "Unknown".toList then "(".toList ++ dec tool ++ ")".toList else []) ++
        ("; ".toList ++ dec g2)))) := by
    refine lit ⟨by decide, by decide⟩ (lit (hg _) (lit ?_ (lit ⟨by decide, by decide⟩ (line_dec _))))
    split
    · exact lit (lit ⟨by decide, by decide⟩ (line_dec _)) ⟨by decide, by decide⟩
    · exact line_nil
  have l4 : Line (" Bound: ".toList ++ dec h.bound.toNat) := lit ⟨by decide, by decide⟩ (line_dec _)
  have l5 : Line (" Schema: ".toList ++ dec h.schema.toNat) := lit ⟨by decide, by decide⟩ (line_dec _)
  have := (((blank_line l1).append (blank_line l2)).append (blank_line l3)).append (blank_line l4) |>.append (blank_line l5)
  have e1 : "; SPIR-V\n".toList = ';' :: (" SPIR-V".toList ++ ['\n']) := by decide
  have e2 : "; Version: ".toList = ';' :: " Version: ".toList := by decide
  have e3 : "; Generator: ".toList = ';' :: " Generator: ".toList := by decide
  have e4 : "; Bound: ".toList = ';' :: " Bound: ".toList := by decide
  have e5 : "; Schema: ".toList = ';' :: " Schema: ".toList := by decide
  have e6 : "\n".toList = ['\n'] := by decide
  rw [e1, e2, e3, e4, e5, e6]
  simpa only [List.append_assoc, List.cons_append, List.nil_append] using this

end Verif.Disasm
