import Verif.StringLit.Lemmas

/-!
# C07  Literal strings round-trip through their word encoding

Specification: `Spec.bytes ws` is the byte sequence obtained by reading each
word least-significant byte first. A word list *represents* the string `s` when
its bytes are `s`, then at least one zero byte, then only zero bytes, and it has
the minimal number of words.
-/
namespace Verif.StringLit

namespace Spec

/-- Byte `k` (0 = least significant) of a word, as a number. -/
def byteAt (w : BitVec 32) (k : Nat) : BitVec 8 := BitVec.ofNat 8 (w.toNat / 2 ^ (8 * k))

/-- All bytes of a word sequence, in little-endian order within each word. -/
def bytes (ws : List (BitVec 32)) : List (BitVec 8) :=
  ws.flatMap fun w => [byteAt w 0, byteAt w 1, byteAt w 2, byteAt w 3]

/-- `ws` is the SPIR-V representation of the byte string `s`. -/
def Represents (ws : List (BitVec 32)) (s : List (BitVec 8)) : Prop :=
  ws.length = s.length / 4 + 1 ∧
  ∃ pad, 1 ≤ pad ∧ bytes ws = s ++ List.replicate pad 0

end Spec

theorem bytes_eq (ws : List Word) : Spec.bytes ws = ws.flatMap bytesOf := by
  unfold Spec.bytes bytesOf Spec.byteAt
  congr 1
  funext w
  have : ∀ k, BitVec.ofNat 8 (w.toNat / 2 ^ (8 * k)) = w.extractLsb' (8 * k) 8 := by
    intro k
    apply BitVec.eq_of_toNat_eq
    simp [BitVec.extractLsb'_toNat, Nat.shiftRight_eq_div_pow]
  rw [this 0, this 1, this 2, this 3]

/-- C07 (encoding): the encoding of any byte string is its representation. -/
theorem makeVector_represents (s : List Byte) : Spec.Represents (makeVector s) s := by
  have h := appendLoop_bytes (s ++ [0]) 0 [] (by omega)
  rw [← appendToVector_eq] at h
  obtain ⟨h1, h2⟩ := h
  refine ⟨?_, 1 + (4 - (s.length + 1) % 4) % 4, by omega, ?_⟩
  · unfold makeVector; rw [h2]; simp; omega
  · rw [bytes_eq]; unfold makeVector; rw [h1]
    simp [Nat.add_comm 1, List.replicate_succ]

/-- C07 (appending): `AppendToVector` leaves what was there and adds the encoding. -/
theorem appendToVector_append (s : List Byte) (r : List Word) :
    Spec.bytes (appendToVector s r) = Spec.bytes r ++ Spec.bytes (makeVector s) := by
  have h := appendLoop_bytes (s ++ [0]) 0 r (by omega)
  have h' := appendLoop_bytes (s ++ [0]) 0 [] (by omega)
  rw [← appendToVector_eq] at h h'
  rw [bytes_eq, bytes_eq, bytes_eq]
  unfold makeVector
  rw [h.1, h'.1]; simp

/-- C07 (decoding, complete description): on every word sequence the decoder
returns the bytes before the first zero byte, and reports "terminator found"
exactly when some byte is zero; otherwise it returns all bytes. -/
theorem makeString_spec (ws : List Word) :
    makeString ws =
      if 0#8 ∈ Spec.bytes ws then .found ((Spec.bytes ws).takeWhile (· ≠ 0))
      else .unterminated (Spec.bytes ws) := by
  rw [bytes_eq]
  unfold makeString
  rw [makeStringLoop_eq]
  simp only [List.nil_append, strOf]

/-- C07 (round trip): a NUL-free string is recovered from its encoding, whatever
words follow it. -/
theorem makeString_makeVector (s : List Byte) (hs : 0#8 ∉ s) (rest : List Word) :
    makeString (makeVector s ++ rest) = .found s := by
  obtain ⟨_, pad, hp, hb⟩ := makeVector_represents s
  rw [makeString_spec]
  have e : Spec.bytes (makeVector s ++ rest) = s ++ (List.replicate pad 0 ++ Spec.bytes rest) := by
    rw [← List.append_assoc, ← hb]; simp [Spec.bytes]
  rw [e]
  have hm : 0#8 ∈ s ++ (List.replicate pad 0 ++ Spec.bytes rest) := by
    simp; right; left; omega
  rw [if_pos hm]
  congr 1
  obtain ⟨p, rfl⟩ : ∃ p, pad = p + 1 := ⟨pad - 1, by omega⟩
  have := takeWhile_append_not_mem hs (List.replicate (p + 1) 0 ++ Spec.bytes rest)
  unfold strOf at this
  rw [this]
  simp [List.replicate_succ]

/-- C07 (injectivity): different NUL-free strings have different encodings, even
as prefixes of longer word streams. -/
theorem makeVector_prefix_injective (s t : List Byte) (hs : 0#8 ∉ s) (ht : 0#8 ∉ t)
    (x y : List Word) (h : makeVector s ++ x = makeVector t ++ y) : s = t := by
  have h1 := makeString_makeVector s hs x
  have h2 := makeString_makeVector t ht y
  rw [h] at h1
  rw [h1] at h2
  injection h2

/-- C07 (converse round trip): re-encoding a decoded, terminated string gives back
exactly the representation, so decoding loses nothing but padding. -/
theorem makeVector_makeString (ws : List Word) (s : List Byte) (hs : 0#8 ∉ s)
    (h : Spec.Represents ws s) : makeString ws = .found s ∧ makeVector s = ws := by
  have key : ∀ (a b : List Word), a.length = b.length → Spec.bytes a = Spec.bytes b → a = b := by
    intro a
    induction a with
    | nil => intro b hb _; cases b <;> simp_all
    | cons u a ih =>
      intro b hb hbytes
      cases b with
      | nil => simp at hb
      | cons v b =>
        simp only [Spec.bytes, List.flatMap_cons, List.cons_append, List.nil_append,
          List.cons.injEq] at hbytes
        obtain ⟨b0, b1, b2, b3, hr⟩ := hbytes
        have huv : u = v := by
          apply BitVec.eq_of_toNat_eq
          have hu := u.isLt
          have hv := v.isLt
          unfold Spec.byteAt at b0 b1 b2 b3
          have c0 := congrArg BitVec.toNat b0
          have c1 := congrArg BitVec.toNat b1
          have c2 := congrArg BitVec.toNat b2
          have c3 := congrArg BitVec.toNat b3
          simp only [BitVec.toNat_ofNat, Nat.reduceMul, Nat.reducePow, Nat.mul_zero, Nat.pow_zero,
            Nat.div_one, Nat.mul_one] at c0 c1 c2 c3
          omega
        rw [huv, ih b (by simpa using hb) hr]
  obtain ⟨hl, pad, hp, hb⟩ := h
  obtain ⟨hl', pad', hp', hb'⟩ := makeVector_represents s
  have hbl : ∀ w : List Word, (Spec.bytes w).length = 4 * w.length := by
    intro w; induction w with
    | nil => rfl
    | cons a w ih => simp [Spec.bytes] at ih ⊢; omega
  have hpad : pad = pad' := by
    have e1 := congrArg List.length hb
    have e2 := congrArg List.length hb'
    rw [hbl] at e1 e2
    simp at e1 e2
    omega
  have e : makeVector s = ws := key _ _ (by rw [hl, hl']) (by rw [hb, hb', hpad])
  refine ⟨?_, e⟩
  have := makeString_makeVector s hs []
  rwa [List.append_nil, e] at this

/-! ### Non-vacuity -/

-- "main" needs two words; "abc" fits one.
example : makeVector [109, 97, 105, 110] = [0x6e69616d, 0] := by decide
example : makeVector [97, 98, 99] = [0x00636261] := by decide
example : (0#8 ∉ ([109, 97, 105, 110] : List Byte)) := by decide
example : makeString (makeVector [109, 97, 105, 110] ++ [7]) = .found [109, 97, 105, 110] :=
  makeString_makeVector _ (by decide) _
example : makeString [0x6e69616d] = .unterminated [109, 97, 105, 110] := by decide
example : Spec.Represents [0x6e69616d, 0] [109, 97, 105, 110] :=
  makeVector_represents [109, 97, 105, 110]

end Verif.StringLit
