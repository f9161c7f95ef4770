import Verif.Asm.Model
import Verif.StringLit.Props
/-!
C12: string literals survive disassembly followed by assembly.
-/
set_option linter.unusedSimpArgs false
set_option linter.unusedVariables false
namespace Verif.Asm
open Verif.ParseNumber (Text)

/-- The characters written for a string operand (source/disassemble.cpp:948-958,
    without colours). -/
def escape : Text → Text
  | [] => []
  | c :: s => if c = '"' ∨ c = '\\' then '\\' :: c :: escape s else c :: escape s

def quote (s : Text) : Text := '"' :: (escape s ++ ['"'])

theorem getWordFrom_escape (s : Text) (hs : '\x00' ∉ s) (k : Text) :
    getWordFrom true false (escape s ++ k) =
      (escape s ++ (getWordFrom true false k).1, (getWordFrom true false k).2) := by
  induction s with
  | nil => simp [escape]
  | cons c s ih =>
    have hc : c ≠ '\x00' := fun h => hs (h ▸ List.mem_cons_self ..)
    have ih := ih (fun h => hs (List.mem_cons_of_mem _ h))
    unfold escape
    by_cases h1 : c = '"'
    · subst h1
      simp only [List.cons_append]
      rw [getWordFrom.eq_def]
      simp
      rw [getWordFrom.eq_def]
      simp [ih]
    · by_cases h2 : c = '\\'
      · subst h2
        simp only [List.cons_append]
        rw [getWordFrom.eq_def]
        simp
        rw [getWordFrom.eq_def]
        simp [ih]
      · simp only [h1, h2, or_self, if_false, List.cons_append]
        rw [getWordFrom.eq_def]
        simp [ih, h1, h2, hc]

/-- What may follow a quoted word: the end of the text, a separator or a NUL. -/
def Spec.Separated (k : Text) : Prop :=
  ∀ c, k.head? = some c → c ∈ [' ', ';', ',', '(', ')', '\t', '\n', '\r', '\x00']

theorem getWordFrom_separated {k : Text} (hk : Spec.Separated k) : getWordFrom false false k = ([], k) := by
  cases k with
  | nil => rfl
  | cons c k =>
    have := hk c rfl
    unfold getWordFrom
    simp only [List.mem_cons, List.not_mem_nil, or_false] at this
    rcases this with rfl | rfl | rfl | rfl | rfl | rfl | rfl | rfl | rfl <;> rfl

/-- C12, lexing: the assembler reads the quoted string as one word, and continues
    right after it. -/
theorem getWord_quote (s : Text) (hs : '\x00' ∉ s) (k : Text) (hk : Spec.Separated k) :
    getWord (quote s ++ k) = (quote s, k) := by
  unfold getWord quote
  simp only [List.cons_append, List.append_assoc, List.nil_append]
  unfold getWordFrom
  simp only [Char.reduceEq, if_false, if_true, Bool.not_false, Bool.false_eq_true]
  rw [getWordFrom_escape s hs]
  have : getWordFrom true false ('"' :: k) = (['"'], k) := by
    unfold getWordFrom
    simp [getWordFrom_separated hk]
  simp [this]

theorem unescape_escape (s k out : Text) (h : out.length + s.length ≤ maxStringBytes) :
    unescape (escape s ++ k) false out = unescape k false (out ++ s) := by
  induction s generalizing out with
  | nil => simp [escape]
  | cons c s ih =>
    simp only [List.length_cons] at h
    have hlt : ¬ maxStringBytes ≤ out.length := by omega
    have ih' := ih (out ++ [c]) (by simp; omega)
    simp only [List.append_assoc, List.cons_append, List.nil_append] at ih'
    unfold escape
    split
    · simp only [List.cons_append]
      rw [unescape.eq_def]
      simp
      rw [unescape.eq_def]
      simp [hlt, ih']
    · rename_i hn
      simp only [List.cons_append]
      rw [unescape.eq_def]
      have : ¬ c = '\\' := fun h => hn (.inr h)
      simp [this, hlt, ih']

/-- C12, unescaping. -/
theorem textToLiteral_quote (s : Text) (hs : s.length ≤ maxStringBytes) :
    textToLiteral (quote s) = .str s := by
  have hcl : (classify 0 false 0 (quote s)).1 = true := by
    unfold quote classify
    simp
  have hdrop : ((quote s).drop 1).dropLast = escape s := by
    unfold quote
    simp
  have hlast : (quote s).getLast? = some '"' := by
    unfold quote
    rw [← List.cons_append, List.getLast?_append]
    rfl
  have hlen : ¬ (quote s).length < 2 := by unfold quote; simp
  unfold textToLiteral
  generalize hg : classify 0 false 0 (quote s) = q at hcl
  obtain ⟨a, b⟩ := q
  simp only at hcl
  subst hcl
  have hne : quote s ≠ [] := by unfold quote; simp
  have hhead : (quote s).head? = some '"' := rfl
  have hu := unescape_escape s [] [] (by simpa using hs)
  simp only [List.append_nil, List.nil_append] at hu
  simp only [hne, hlen, hlast, hdrop, hhead, hu, if_false, true_or, if_true, ne_eq, not_true_eq_false,
    or_self, unescape]

/-- C12: a NUL-free string of at most 65535 * 4 bytes, printed by the disassembler
    and followed by the end of the text or a separator, is read back by the
    assembler: one word, exactly the quoted token, denoting the string. -/
theorem string_roundtrip (s : Text) (hs : '\x00' ∉ s) (hlen : s.length ≤ 65535 * 4) (k : Text)
    (hk : Spec.Separated k) :
    (getWord (quote s ++ k)).2 = k ∧ textToLiteral (getWord (quote s ++ k)).1 = .str s := by
  rw [getWord_quote s hs k hk]
  exact ⟨rfl, textToLiteral_quote s hlen⟩

/-- The character for a byte. -/
def charOf (b : BitVec 8) : Char := Char.ofNat b.toNat

theorem charOf_toNat (b : BitVec 8) : (charOf b).toNat = b.toNat := by
  have hb := b.isLt
  have hv : b.toNat.isValidChar := Or.inl (by omega)
  unfold charOf Char.ofNat
  rw [dif_pos hv]
  rfl

theorem byteOf_charOf (b : BitVec 8) : byteOf (charOf b) = b := by
  unfold byteOf
  rw [charOf_toNat]
  simp

theorem map_byteOf_charOf (bs : List (BitVec 8)) : (bs.map charOf).map byteOf = bs := by
  simp [Function.comp_def, byteOf_charOf]

theorem charOf_ne_nul {b : BitVec 8} (h : b ≠ 0) : charOf b ≠ '\x00' := by
  intro hc
  apply h
  have := byteOf_charOf b
  rw [hc] at this
  exact this.symm

theorem appendLoop_out (bs : List (BitVec 8)) (i : Nat) (w : StringLit.Word) (out : List StringLit.Word) :
    StringLit.appendLoop bs i w out =
      (out ++ (StringLit.appendLoop bs i w []).1, (StringLit.appendLoop bs i w []).2) := by
  induction bs generalizing i w out with
  | nil => simp [StringLit.appendLoop]
  | cons b bs ih =>
    unfold StringLit.appendLoop
    simp only
    split
    · rw [ih (i + 1) 0 (out ++ _), ih (i + 1) 0 ([] ++ _)]
      simp
    · rw [ih]

theorem appendToVector_eq_append (s : List (BitVec 8)) (r : List StringLit.Word) :
    StringLit.appendToVector s r = r ++ StringLit.makeVector s := by
  unfold StringLit.makeVector StringLit.appendToVector
  simp only
  rw [appendLoop_out _ _ _ r]
  split <;> simp

/-- C12, words: the string operand `words` of an instruction whose bytes after the
    string are zero, printed and assembled again, gives the same words. -/
theorem string_words_roundtrip (bs : List (BitVec 8)) (hbs : 0#8 ∉ bs) (hlen : bs.length ≤ 65535 * 4)
    (k : Text) (hk : Spec.Separated k) (i : Inst)
    (hfit : i.words.length + (StringLit.makeVector bs).length ≤ 65535) :
    ∃ w, getWord (quote (bs.map charOf) ++ k) = (w, k) ∧ ∃ s, textToLiteral w = .str s ∧
      encodeString s i = .ok { i with words := i.words ++ StringLit.makeVector bs } := by
  have hnul : '\x00' ∉ bs.map charOf := by
    intro h
    obtain ⟨b, hb, he⟩ := List.mem_map.mp h
    exact charOf_ne_nul (fun h0 => hbs (by rw [h0] at hb; exact hb)) he
  refine ⟨_, getWord_quote _ hnul k hk, _, textToLiteral_quote _ (by simpa [maxStringBytes] using hlen), ?_⟩
  have hvl : (StringLit.makeVector bs).length = bs.length / 4 + 1 := (StringLit.makeVector_represents bs).1
  unfold encodeString
  rw [map_byteOf_charOf, List.length_map, if_neg (by unfold maxWords; omega), appendToVector_eq_append]

example : quote "a\\b\"c; d".toList = "\"a\\\\b\\\"c; d\"".toList := by decide
example : getWord ("\"a b\" ; rest".toList) = ("\"a b\"".toList, " ; rest".toList) := by decide

/-- The converse fails: the disassembler shows only the bytes before the first NUL,
    so words with other bytes after it come back changed. -/
theorem padding_lost : (StringLit.makeString [0x62000061#32]).str = [0x61#8] ∧
    StringLit.makeVector [0x61#8] ≠ [0x62000061#32] := by decide

end Verif.Asm
