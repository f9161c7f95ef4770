import Verif.Disasm.Props
import Verif.Binary.Example
/-!
Evaluation of the assembler with a step budget, used for examples only.
-/
set_option linter.unusedSimpArgs false
set_option linter.unusedVariables false
namespace Verif.Disasm.Eval
open Verif.ParseNumber (Text)
open Verif.Binary (OT takeFirst)
open Verif.Asm

def operandLoopF (G : AGrammar) (preserve : List Nat) (result : Text) : Nat → S → Text → Option L
  | 0, _, _ => none
  | n + 1, st, s =>
    match takeFirst st.expected with
    | none => some (.done st s)
    | some (t, p) =>
      if t = .RESULT_ID ∧ result ≠ [] then
        match encodeId preserve .RESULT_ID result { st with expected := p } with
        | .ok st' => operandLoopF G preserve result n st' s
        | .failed => some .failed
        | .err => some .err
        | .fault => some .fault
      else
        match advance s with
        | none => some (if t.isOptional then .done { st with expected := p } [] else .err)
        | some s1 =>
          match isStartOfNewInst s1 with
          | none => some .fault
          | some true => some (if t.isOptional then .done { st with expected := p } s1 else .err)
          | some false =>
            match getWord s1 with
            | (w, r) =>
              if w = [] then some .fault
              else
                match encodeOperand G preserve t w { st with expected := p } with
                | .ok st' => operandLoopF G preserve result n st' r
                | .failed => some (if t.isOptional then .early { st with expected := p } s1 else .failed)
                | .err => some .err
                | .fault => some .fault

theorem operandLoopF_eq {G : AGrammar} {P : List Nat} {res : Text} :
    ∀ (n : Nat) (st : S) (s : Text) (r : L), operandLoopF G P res n st s = some r → operandLoop G P res st s = r := by
  intro n
  induction n with
  | zero => intro st s r h; simp [operandLoopF] at h
  | succ n ih =>
    intro st s r h
    rw [operandLoopF] at h
    rw [operandLoop]
    split at h
    · rename_i ht
      split
      · simpa using h
      · rename_i h2; rw [ht] at h2; cases h2
    · rename_i t p ht
      split
      · rename_i h2; rw [ht] at h2; cases h2
      · rename_i h2
        rw [ht] at h2; cases h2
        split at h
        · rename_i hr
          rw [dif_pos hr]
          split at h <;> rename_i he <;> split <;> rename_i he2 <;> rw [he] at he2 <;> cases he2
          · exact ih _ _ _ h
          · simpa using h
          · simpa using h
          · simpa using h
        · rename_i hr
          rw [dif_neg hr]
          split at h
          · rename_i ha
            split
            · simpa using h
            · rename_i ha2; rw [ha] at ha2; cases ha2
          · rename_i s1 ha
            split
            · rename_i ha2; rw [ha] at ha2; cases ha2
            · rename_i ha2
              rw [ha] at ha2; cases ha2
              split at h
              · rename_i hi; rw [hi]; simpa using h
              · rename_i hi; rw [hi]; simpa using h
              · rename_i hi
                rw [hi]
                simp only
                generalize hg : getWord s1 = q at h ⊢
                obtain ⟨w, r1⟩ := q
                simp only at h ⊢
                split at h
                · rename_i hw; rw [dif_pos hw]; simpa using h
                · rename_i hw
                  rw [dif_neg hw]
                  split at h <;> rename_i he <;> rw [he]
                  · exact ih _ _ _ h
                  · simpa using h
                  · simpa using h
                  · simpa using h

def encodeOpcodeF (n : Nat) (G : AGrammar) (preserve : List Nat) (ctx : Ctx) (s : Text) :
    Option (R (Ctx × Inst × Text)) :=
  if s.head? = some '!' then none
  else
    match readOpcode s with
    | .fault => some .fault
    | .failed => some .failed
    | .err => some .err
    | .ok (result, name, r) =>
      if name = "OpUnknown".toList then none
      else
        match G.opcodeByName (name.drop 2) with
        | none => some .err
        | some d =>
          if d.hasResult ∧ result = [] then some .err
          else if d.hasResult = false ∧ result ≠ [] then some .err
          else
            (operandLoopF G preserve result n ⟨ctx, ⟨[0], d.opcode, 0, 0⟩, d.operands⟩ r).map fun
            | .done st rest =>
              match finish G d st.ctx st.inst with
              | .ok (ctx, i) => .ok (ctx, i, rest)
              | .failed => .failed
              | .err => .err
              | .fault => .fault
            | .early st rest => .ok (st.ctx, st.inst, rest)
            | .err => .err
            | .failed => .failed
            | .fault => .fault

theorem encodeOpcodeF_eq {n : Nat} {G : AGrammar} {P : List Nat} {ctx : Ctx} {s : Text} {r : R (Ctx × Inst × Text)}
    (h : encodeOpcodeF n G P ctx s = some r) : encodeOpcode G P ctx s = r := by
  unfold encodeOpcodeF at h
  unfold encodeOpcode
  split at h
  · cases h
  · rename_i h1
    rw [if_neg h1]
    split at h <;> rename_i ho <;> rw [ho]
    · simpa using h
    · simpa using h
    · simpa using h
    · simp only
      split at h
      · cases h
      · rename_i h2
        rw [if_neg h2]
        split at h <;> rename_i hd <;> rw [hd]
        · simpa using h
        · simp only
          split at h
          · rename_i h3; rw [if_pos h3]; simpa using h
          · rename_i h3
            rw [if_neg h3]
            split at h
            · rename_i h4; rw [if_pos h4]; simpa using h
            · rename_i h4
              rw [if_neg h4]
              obtain ⟨l, hl, hr⟩ := Option.map_eq_some_iff.1 h
              rw [operandLoopF_eq _ _ _ _ hl, ← hr]
              cases l <;> rfl

def assembleLoopF (n : Nat) (G : AGrammar) (preserve : List Nat) : Nat → Ctx → Text → List Inst →
    Option (R (Ctx × List Inst))
  | 0, _, _, _ => some .fault
  | fuel + 1, ctx, s, out =>
    match encodeOpcodeF n G preserve ctx s with
    | none => none
    | some (.ok (ctx, i, r)) =>
      match advance r with
      | none => some (.ok (ctx, out ++ [i]))
      | some r1 => assembleLoopF n G preserve fuel ctx r1 (out ++ [i])
    | some .failed => some .failed
    | some .err => some .err
    | some .fault => some .fault

theorem assembleLoopF_eq {n : Nat} {G : AGrammar} {P : List Nat} : ∀ (f : Nat) (ctx : Ctx) (s : Text)
    (out : List Inst) (r : R (Ctx × List Inst)), assembleLoopF n G P f ctx s out = some r →
      assembleLoop G P f ctx s out = r := by
  intro f
  induction f with
  | zero => intro ctx s out r h; simpa [assembleLoopF, assembleLoop] using h
  | succ f ih =>
    intro ctx s out r h
    rw [assembleLoopF] at h
    rw [assembleLoop]
    split at h
    · cases h
    all_goals
      rename_i he
      rw [encodeOpcodeF_eq he]
      simp only
    · split at h <;> rename_i ha <;> rw [ha] <;> simp only
      · simpa using h
      · exact ih _ _ _ _ h
    · simpa using h
    · simpa using h
    · simpa using h

def runF (n : Nat) (G : AGrammar) (preserve : List Nat) (s : Text) : Option (R (Ctx × List Inst)) :=
  let s1 := advanceTo s
  if s1 = [] then some (.ok (.init, [])) else assembleLoopF n G preserve (s1.length + 1) .init s1 []

theorem runF_eq {n : Nat} {G : AGrammar} {P : List Nat} {s : Text} {r : R (Ctx × List Inst)}
    (h : runF n G P s = some r) : run G P s = r := by
  unfold runF at h; unfold run
  simp only at h ⊢
  split at h
  · rename_i h1; rw [if_pos h1]; simpa using h
  · rename_i h1; rw [if_neg h1]; exact assembleLoopF_eq _ _ _ _ _ h

/-- The assembler with numeric ids preserved. -/
def assembleF (n : Nat) (G : AGrammar) (version : Word) (s : Text) : Option (R (List Word)) :=
  match runF n G [] s with
  | none => none
  | some .fault => some .fault
  | some (.ok (ctx, _)) =>
    match runF n G (numericIds ctx.ids) s with
    | none => none
    | some (.ok (ctx, is)) =>
      some (.ok ([0x07230203#32, version, 0x00070000#32, BitVec.ofNat 32 ctx.ids.bound, 0] ++
        is.flatMap (·.words)))
    | some .failed => some .failed
    | some .err => some .err
    | some .fault => some .fault
  | some .failed => some .err
  | some .err => some .err

theorem assembleF_eq {n : Nat} {G : AGrammar} {version : Word} {s : Text} {r : R (List Word)}
    (h : assembleF n G version s = some r) : assemble G version true s = r := by
  unfold assembleF at h
  unfold assemble
  simp only [if_true]
  split at h
  · cases h
  · rename_i h1; rw [runF_eq h1]; simpa using h
  · rename_i h1
    rw [runF_eq h1]
    simp only
    split at h
    · cases h
    all_goals
      rename_i h2
      rw [runF_eq h2]
      simpa using h
  · rename_i h1; rw [runF_eq h1]; simpa using h
  · rename_i h1; rw [runF_eq h1]; simpa using h

deriving instance DecidableEq for R
deriving instance DecidableEq for Except

/-- The disassembler on a module, evaluated. -/
def textF (G : Binary.Grammar) (N : Names) (host : Binary.Endian) (mv : Word) (opt : Options) (ws : List Word) :
    Option (Except Int Text) :=
  match Binary.Example.observeF G host mv opt.unk ws with
  | some ((some (e, hd), xs), c) =>
    match Binary.Spec.feed (fun (s : Option St) x => (s.bind (handleInstruction G N opt x), 0))
      (some (handleHeader N opt hd .init)) xs c with
    | (none, _) => none
    | (some s, c) => some (if c = 0 then .ok s.out else .error c)
  | _ => none

theorem textF_eq {G : Binary.Grammar} {N : Names} {host : Binary.Endian} {mv : Word} {opt : Options}
    {ws : List Word} {r : Except Int Text} (h : textF G N host mv opt ws = some r) :
    binaryToText G N host mv opt ws = some r := by
  unfold textF at h
  split at h
  · rename_i e hd xs c ho
    have hobs := Binary.Example.observeF_eq ho
    unfold binaryToText
    rw [Binary.parse_feed G host mv opt.unk ws _ _ _ hobs]
    simp only [ne_eq, not_true_eq_false, if_false, Option.map_some]
    generalize Binary.Spec.feed (fun (s : Option St) x => (s.bind (handleInstruction G N opt x), (0 : Int)))
      (some (handleHeader N opt hd .init)) xs c = q at h ⊢
    obtain ⟨s, c⟩ := q
    cases s with
    | none => cases h
    | some s => simpa using h
  · cases h

end Verif.Disasm.Eval
