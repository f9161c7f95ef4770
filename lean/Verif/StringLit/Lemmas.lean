import Verif.StringLit.Model

set_option linter.unusedSimpArgs false
set_option linter.unusedVariables false

namespace Verif.StringLit

/-- The four bytes of a word, least significant first. -/
def bytesOf (w : Word) : List Byte :=
  [w.extractLsb' 0 8, w.extractLsb' 8 8, w.extractLsb' 16 8, w.extractLsb' 24 8]

def pack (a b c d : Byte) : Word :=
  (((0 ||| a.zeroExtend 32 <<< 0) ||| b.zeroExtend 32 <<< 8) ||| c.zeroExtend 32 <<< 16)
    ||| d.zeroExtend 32 <<< 24

theorem bytesOf_pack (a b c d : Byte) : bytesOf (pack a b c d) = [a, b, c, d] := by
  unfold bytesOf pack
  simp only [List.cons.injEq, and_true]
  refine ⟨?_, ?_, ?_, ?_⟩ <;>
  · apply BitVec.eq_of_getLsbD_eq
    intro i hi
    simp [BitVec.getLsbD_extractLsb', hi, BitVec.getLsbD_or, BitVec.getLsbD_shiftLeft]
    try (constructor <;> intros <;> omega)
    try grind

theorem appendLoop_four (a b c d : Byte) (rest : List Byte) (i : Nat) (out : List Word)
    (hi : i % 4 = 0) :
    appendLoop (a :: b :: c :: d :: rest) i 0 out
      = appendLoop rest (i + 4) 0 (out ++ [pack a b c d]) := by
  have h1 : (i + 1) % 4 = 1 := by omega
  have h2 : (i + 1 + 1) % 4 = 2 := by omega
  have h3 : (i + 1 + 1 + 1) % 4 = 3 := by omega
  simp [appendLoop, hi, h1, h2, h3, pack]

/-- Final flush of the partial word (the `if` after the loop), as a function of
the number of bytes visited. -/
def flush (n : Nat) (r : List Word × Word) : List Word :=
  if n % 4 ≠ 0 then r.1 ++ [r.2] else r.1

theorem appendLoop_bytes (bs : List Byte) : ∀ (i : Nat) (out : List Word), i % 4 = 0 →
    (flush bs.length (appendLoop bs i 0 out)).flatMap bytesOf
      = out.flatMap bytesOf ++ bs ++ List.replicate ((4 - bs.length % 4) % 4) 0
    ∧ (flush bs.length (appendLoop bs i 0 out)).length = out.length + (bs.length + 3) / 4 := by
  induction bs using (measure List.length).wf.induction with
  | _ bs ih =>
    intro i out hi
    have h1 : (i + 1) % 4 = 1 := by omega
    have h2 : (i + 1 + 1) % 4 = 2 := by omega
    match bs, ih with
    | [], _ => simp [appendLoop, flush]
    | [a], _ =>
      have e : pack a 0 0 0 = BitVec.setWidth 32 a := by simp [pack]
      have := bytesOf_pack a 0 0 0
      rw [e] at this
      simp [appendLoop, flush, hi, this, List.replicate]
    | [a, b], _ =>
      have e : pack a b 0 0 = BitVec.setWidth 32 a ||| BitVec.setWidth 32 b <<< 8 := by simp [pack]
      have := bytesOf_pack a b 0 0
      rw [e] at this
      simp [appendLoop, flush, hi, h1, this, List.replicate]
    | [a, b, c], _ =>
      have e : pack a b c 0 = BitVec.setWidth 32 a ||| BitVec.setWidth 32 b <<< 8
          ||| BitVec.setWidth 32 c <<< 16 := by simp [pack]
      have := bytesOf_pack a b c 0
      rw [e] at this
      simp [appendLoop, flush, hi, h1, h2, this, List.replicate]
    | a :: b :: c :: d :: rest, ih =>
      rw [appendLoop_four _ _ _ _ _ _ _ hi]
      have := ih rest (by simp [WellFoundedRelation.rel, InvImage]; omega) (i + 4)
        (out ++ [pack a b c d]) (by omega)
      have hl : (a :: b :: c :: d :: rest).length = rest.length + 4 := by simp
      have hf : ∀ r, flush (a :: b :: c :: d :: rest).length r = flush rest.length r := by
        intro r; unfold flush; rw [hl]; simp
      rw [hf]
      obtain ⟨t1, t2⟩ := this
      refine ⟨?_, ?_⟩
      · rw [t1, hl]
        simp [bytesOf_pack]
      · rw [t2, hl]; simp; omega

theorem appendToVector_eq (s : List Byte) (r : List Word) :
    appendToVector s r = flush (s ++ [0]).length (appendLoop (s ++ [0]) 0 0 r) := by
  simp [appendToVector, flush]

theorem decodeWord_step (w : Word) (n k : Nat) (r : List Byte) (hk : k < 4) :
    decodeWord w (n + 1) k r =
      if w.extractLsb' (8 * k) 8 = 0 then .inl r
      else decodeWord w n (k + 1) (r ++ [w.extractLsb' (8 * k) 8]) := by
  have : (((w >>> (8 * k)) &&& 0xFF).truncate 8 : Byte) = w.extractLsb' (8 * k) 8 := by
    apply BitVec.eq_of_getLsbD_eq
    intro i hi
    have : i = 0 ∨ i = 1 ∨ i = 2 ∨ i = 3 ∨ i = 4 ∨ i = 5 ∨ i = 6 ∨ i = 7 := by omega
    rcases this with h|h|h|h|h|h|h|h <;> subst h <;> simp [BitVec.getLsbD_extractLsb']
  simp only [decodeWord, this]

/-- takeWhile-nonzero -/
def strOf (bs : List Byte) : List Byte := bs.takeWhile (· ≠ 0)

theorem decodeWord_eq (w : Word) (r : List Byte) :
    decodeWord w 4 0 r =
      if 0#8 ∈ bytesOf w then .inl (r ++ strOf (bytesOf w)) else .inr (r ++ bytesOf w) := by
  rw [decodeWord_step w 3 0 _ (by omega), decodeWord_step w 2 1 _ (by omega),
    decodeWord_step w 1 2 _ (by omega), decodeWord_step w 0 3 _ (by omega)]
  simp only [Nat.reduceMul, strOf, bytesOf, Nat.mul_zero, Nat.mul_one,
    List.takeWhile_cons, List.takeWhile_nil, List.mem_cons, List.not_mem_nil, or_false,
    decodeWord]
  generalize w.extractLsb' 0 8 = a
  generalize w.extractLsb' 8 8 = b
  generalize w.extractLsb' 16 8 = c
  generalize w.extractLsb' 24 8 = d
  by_cases ha : a = 0#8
  · simp [ha]
  by_cases hb : b = 0#8
  · simp [ha, hb]
  by_cases hc : c = 0#8
  · simp [ha, hb, hc]
  by_cases hd : d = 0#8
  · simp [ha, hb, hc, hd]
  simp [ha, hb, hc, hd, Ne.symm ha, Ne.symm hb, Ne.symm hc, Ne.symm hd]

theorem takeWhile_append_mem {l : List Byte} (h : 0#8 ∈ l) (m : List Byte) :
    strOf (l ++ m) = strOf l := by
  unfold strOf
  rw [List.takeWhile_append]
  split
  · rename_i hc
    exfalso
    have hc' : l.takeWhile (· ≠ 0) = l :=
      (List.takeWhile_sublist _).eq_of_length hc
    rw [← hc'] at h
    have hh : ∀ (l : List Byte), 0#8 ∉ l.takeWhile (· ≠ 0) := by
      intro l
      induction l with
      | nil => simp
      | cons a l ih =>
        rw [List.takeWhile_cons]
        split
        · rename_i hne
          simp only [decide_eq_true_eq, ne_eq] at hne
          simp only [List.mem_cons, not_or]
          exact ⟨fun e => hne e.symm, ih⟩
        · simp
    exact hh _ h
  · rfl

theorem takeWhile_append_not_mem {l : List Byte} (h : 0#8 ∉ l) (m : List Byte) :
    strOf (l ++ m) = l ++ strOf m := by
  unfold strOf
  apply List.takeWhile_append_of_pos
  intro a ha
  simp
  intro h0
  subst h0; exact h ha

theorem makeStringLoop_eq (ws : List Word) : ∀ r,
    makeStringLoop ws r =
      if 0#8 ∈ ws.flatMap bytesOf then .found (r ++ strOf (ws.flatMap bytesOf))
      else .unterminated (r ++ ws.flatMap bytesOf) := by
  induction ws with
  | nil => intro r; simp [makeStringLoop]
  | cons w ws ih =>
    intro r
    simp only [makeStringLoop, decodeWord_eq, List.flatMap_cons, List.mem_append]
    by_cases h : 0#8 ∈ bytesOf w
    · simp only [h, if_true, true_or, takeWhile_append_mem h]
    · simp only [h, if_false, false_or]
      rw [ih, takeWhile_append_not_mem h]
      simp [List.append_assoc]

end Verif.StringLit
