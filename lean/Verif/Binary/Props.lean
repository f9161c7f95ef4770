import Verif.Binary.Swap
set_option linter.unusedSimpArgs false
set_option linter.unusedVariables false

/-!
# Binary parser: C01–C06, C50
-/
namespace Verif.Binary
open Verif.StringLit (Byte Word)

/-! ## Header helpers -/

theorem bytesOf_inj {a b : Word} (h : StringLit.bytesOf a = StringLit.bytesOf b) : a = b := by
  simp only [StringLit.bytesOf, List.cons.injEq, and_true] at h
  obtain ⟨h0, h1, h2, h3⟩ := h
  apply BitVec.eq_of_getLsbD_eq
  intro i hi
  have key : ∀ k j, j < 8 → a.extractLsb' k 8 = b.extractLsb' k 8 → a.getLsbD (k + j) = b.getLsbD (k + j) := by
    intro k j hj he
    have := congrArg (fun v => v.getLsbD j) he
    simpa [BitVec.getLsbD_extractLsb', hj] using this
  have : i < 8 ∨ (8 ≤ i ∧ i < 16) ∨ (16 ≤ i ∧ i < 24) ∨ (24 ≤ i ∧ i < 32) := by omega
  rcases this with h | h | h | h
  · have := key _ i h h0; simpa using this
  · have := key _ (i - 8) (by omega) h1; rwa [show 8 + (i - 8) = i by omega] at this
  · have := key _ (i - 16) (by omega) h2; rwa [show 16 + (i - 16) = i by omega] at this
  · have := key _ (i - 24) (by omega) h3; rwa [show 24 + (i - 24) = i by omega] at this

theorem hostBytes_little (w : Word) : hostBytes .little w = StringLit.bytesOf w := by
  simp only [hostBytes, StringLit.bytesOf, List.cons.injEq, and_true]
  refine ⟨?_, ?_, ?_, ?_⟩ <;>
  · apply BitVec.eq_of_getLsbD_eq
    intro i hi
    simp [BitVec.getLsbD_extractLsb', hi]

theorem hostBytes_big (w : Word) : hostBytes .big w = StringLit.bytesOf (bswap w) := by
  rw [bswap_bytes, ← hostBytes_little]; rfl

/-- The other byte order. -/
def Endian.other : Endian → Endian
  | .little => .big
  | .big => .little

theorem binaryEndianness_eq (host : Endian) (w : Word) (ws : List Word) :
    binaryEndianness host (w :: ws) =
      if w = Spec.magic then some host else if bswap w = Spec.magic then some host.other else none := by
  have hm : StringLit.bytesOf Spec.magic = [0x03#8, 0x02#8, 0x23#8, 0x07#8] := by decide
  have hm' : StringLit.bytesOf (bswap Spec.magic) = [0x07#8, 0x23#8, 0x02#8, 0x03#8] := by decide
  have hne : bswap Spec.magic ≠ Spec.magic := by decide
  have hs : ∀ w, bswap w = Spec.magic ↔ w = bswap Spec.magic :=
    fun w => ⟨fun h => by rw [← h, bswap_bswap], fun h => by rw [h, bswap_bswap]⟩
  unfold binaryEndianness
  rw [← hm, ← hm']
  have i1 : ∀ {a b : Word}, (StringLit.bytesOf a = StringLit.bytesOf b) = (a = b) :=
    fun {a b} => propext ⟨bytesOf_inj, fun h => by rw [h]⟩
  cases host
  · simp only [hostBytes_little, i1, Endian.other, hs]
  · simp only [hostBytes_big, i1, Endian.other, hs, bswap_bswap]
    by_cases h1 : w = Spec.magic
    · subst h1; simp [Ne.symm hne]
    · have : bswap w ≠ bswap Spec.magic := by
        intro h; apply h1; rw [← bswap_bswap w, h, bswap_bswap]
      simp [h1, this]

theorem fixWord_eq (host e : Endian) (w : Word) : fixWord host e w = fixW (!isHostEndian host e) w := by
  cases host <;> cases e <;> rfl

theorem swap_eq (host : Endian) (ws : List Word) (e : Endian) (h : binaryEndianness host ws = some e) :
    isHostEndian host e = decide (ws.head? = some Spec.magic) ∧
    (e = if ws.head? = some Spec.magic then host else host.other) ∧
    (ws.head? = some Spec.magic ∨ ws.head? = some (bswap Spec.magic)) := by
  cases ws with
  | nil => simp [binaryEndianness] at h
  | cons w ws =>
    rw [binaryEndianness_eq] at h
    simp only [List.head?_cons, Option.some.injEq]
    split at h
    · rename_i h1
      simp only [Option.some.injEq] at h
      subst h
      refine ⟨?_, by simp [h1], Or.inl h1⟩
      cases host <;> simp [isHostEndian, h1]
    · rename_i h1
      split at h
      · rename_i h2
        simp only [Option.some.injEq] at h
        subst h
        refine ⟨?_, by simp [h1], Or.inr (by rw [← h2, bswap_bswap])⟩
        cases host <;> simp [isHostEndian, h1, Endian.other]
      · simp at h

theorem hostOrder_eq {ws : List Word} {swap : Bool} (h : swap = !decide (ws.head? = some Spec.magic)) :
    Spec.hostOrder ws = ws.map (fixW swap) := by
  unfold Spec.hostOrder
  split
  · rename_i h1; rw [h]; simp [h1, fixW_false]
  · rename_i h1; rw [h]; simp [h1, fixW_true]

/-- The parser state after the header. -/
def m5 : MState := ⟨5, fun _ => none, fun _ => none, fun _ => none⟩

theorem parse_cases {σ : Type} (G : Grammar) (host : Endian) (mv : Word) (unk : Bool)
    (hcb : σ → Endian → Header → σ × Int) (cb : σ → Inst → σ × Int) (ws : List Word) (s : σ) :
    (∃ c, c ≠ 0 ∧ (∀ (τ : Type) hcb' cb' (s' : τ), parse G host mv unk hcb' cb' ws s' = some (s', c))) ∨
    ∃ e h, 5 ≤ ws.length ∧ binaryEndianness host ws = some e ∧ headerGet host e mv ws = some (some h) ∧
      (∀ (τ : Type) hcb' cb' (s' : τ), parse G host mv unk hcb' cb' ws s' =
        if (hcb' s' e h).2 ≠ 0 then some (hcb' s' e h)
        else moduleLoop G unk (!isHostEndian host e) cb' ws m5 (hcb' s' e h).1) := by
  unfold parse
  by_cases h5 : ws.length < 5
  · left; exact ⟨cInvalidBinary, by decide, fun _ _ _ _ => by rw [if_pos h5]⟩
  · cases he : binaryEndianness host ws with
    | none => left; exact ⟨cInvalidBinary, by decide, fun _ _ _ _ => by rw [if_neg h5]⟩
    | some e =>
      cases hh : headerGet host e mv ws with
      | none =>
        exfalso
        unfold headerGet at hh
        rw [if_neg h5] at hh
        obtain ⟨a, b, c, d, f, r, rfl⟩ : ∃ a b c d f r, ws = a :: b :: c :: d :: f :: r := by
          rcases ws with _ | ⟨a, _ | ⟨b, _ | ⟨c, _ | ⟨d, _ | ⟨f, r⟩⟩⟩⟩⟩
          all_goals first
            | exact ⟨_, _, _, _, _, _, rfl⟩
            | (exfalso; simp at h5)
        simp only [List.getElem?_cons_zero, List.getElem?_cons_succ] at hh
        repeat' split at hh
        all_goals simp at hh
      | some r =>
        cases r with
        | none => left; exact ⟨cInternal, by decide, fun _ _ _ _ => by rw [if_neg h5]; simp only [hh]⟩
        | some h =>
          right
          refine ⟨e, h, by omega, rfl, hh, ?_⟩
          intro τ hcb' cb' s'
          rw [if_neg h5]
          simp only [hh]
          rfl

theorem observe_ok {G : Grammar} {host : Endian} {mv : Word} {unk : Bool} {ws : List Word} {e : Endian}
    {h : Header} {xs : List Inst} {c : Int}
    (hobs : Spec.observe G host mv unk ws = some ((some (e, h), xs), c)) :
    5 ≤ ws.length ∧ binaryEndianness host ws = some e ∧ headerGet host e mv ws = some (some h) ∧
      trace G unk (!isHostEndian host e) ws m5 = some (xs, c) := by
  unfold Spec.observe at hobs
  rcases parse_cases G host mv unk (fun (s : Option (Endian × Header) × List Inst) e h => ((some (e, h), s.2), 0))
    (fun s x => ((s.1, s.2 ++ [x]), 0)) ws (none, []) with ⟨c', -, h1⟩ | ⟨e', h', h1, h2, h3, h4⟩
  · rw [h1] at hobs; simp at hobs
  · rw [h4] at hobs
    simp only [ne_eq, not_true_eq_false, if_false] at hobs
    rw [trace_of_moduleLoop] at hobs
    obtain ⟨⟨ys, c1⟩, h5, h6⟩ := Option.map_eq_some_iff.1 hobs
    simp only [Prod.mk.injEq, Option.some.injEq, List.nil_append] at h6
    obtain ⟨⟨⟨rfl, rfl⟩, rfl⟩, rfl⟩ := h6
    exact ⟨h1, h2, h3, h5⟩

theorem observe_none {G : Grammar} {host : Endian} {mv : Word} {unk : Bool} {ws : List Word}
    {xs : List Inst} {c : Int} (hobs : Spec.observe G host mv unk ws = some ((none, xs), c)) :
    xs = [] ∧ c ≠ 0 ∧ ∀ (τ : Type) hcb' cb' (s' : τ), parse G host mv unk hcb' cb' ws s' = some (s', c) := by
  unfold Spec.observe at hobs
  rcases parse_cases G host mv unk (fun (s : Option (Endian × Header) × List Inst) e h => ((some (e, h), s.2), 0))
    (fun s x => ((s.1, s.2 ++ [x]), 0)) ws (none, []) with ⟨c', h0, h1⟩ | ⟨e', h', h1, h2, h3, h4⟩
  · rw [h1] at hobs
    simp only [Option.some.injEq, Prod.mk.injEq, true_and] at hobs
    obtain ⟨rfl, rfl⟩ := hobs
    exact ⟨rfl, h0, h1⟩
  · rw [h4] at hobs
    simp only [ne_eq, not_true_eq_false, if_false] at hobs
    rw [trace_of_moduleLoop] at hobs
    obtain ⟨⟨ys, c1⟩, h5, h6⟩ := Option.map_eq_some_iff.1 hobs
    simp at h6

/-! ## C01 -/

theorem m5_imports : ∀ x v, m5.imports x = some v → v ≠ 0 := by intro x v h; simp [m5] at h

/-- C01. With grammar tables of the SPIR-V shape, parsing never reads outside the buffer,
fails an assertion or loops forever: every buffer, byte order, callback and callback state
gives a result code. -/
theorem parse_total {σ : Type} (G : Grammar) (hG : Spec.GrammarOk G) (host : Endian) (maxVersion : Word)
    (unk : Bool) (hcb : σ → Endian → Header → σ × Int) (cb : σ → Inst → σ × Int) (ws : List Word) (s : σ) :
    ∃ s' code, parse G host maxVersion unk hcb cb ws s = some (s', code) := by
  rcases parse_cases G host maxVersion unk hcb cb ws s with ⟨c, -, h1⟩ | ⟨e, h, h1, h2, h3, h4⟩
  · exact ⟨s, c, h1 _ _ _ _⟩
  · rw [h4]
    split
    · exact ⟨_, _, rfl⟩
    · cases ht : trace G unk (!isHostEndian host e) ws m5 with
      | none => exact absurd ht (trace_safe hG h1 m5_imports)
      | some r => exact ⟨_, _, moduleLoop_feed ht⟩

/-! ## C02 -/

/-- C02. On success the instructions reported are exactly the words after the header, in
host order; each has the word count and opcode of its first word; its operands are
contiguous from word 1 to the end (unless the caller asked for unknown instructions to be
passed through). -/
theorem parse_tiles (G : Grammar) (host : Endian) (maxVersion : Word) (unk : Bool) (ws : List Word)
    (eh : Option (Endian × Header)) (xs : List Inst)
    (h : Spec.observe G host maxVersion unk ws = some ((eh, xs), 0)) :
    (xs.map (·.words)).flatten = (Spec.hostOrder ws).drop 5 ∧
    ∀ x ∈ xs, (∃ w, x.words.head? = some w ∧ w.toNat / 65536 = x.words.length ∧ w.toNat % 65536 = x.opcode) ∧
      ((Spec.Tiles 1 x.operands x.words.length ∧
        ((∀ o ∈ x.operands, 0 < o.nwords) → x.numOperands = x.operands.length)) ∨
       (unk = true ∧ x.operands = [])) := by
  cases eh with
  | none => exact absurd rfl (observe_none h).2.1
  | some eh =>
    obtain ⟨e, hd⟩ := eh
    obtain ⟨h1, h2, h3, h4⟩ := observe_ok h
    have hsw := hostOrder_eq (ws := ws) (swap := !isHostEndian host e) (by rw [(swap_eq _ _ _ h2).1])
    obtain ⟨rest, r1, r2⟩ := trace_words h4 h1
    rw [r2 rfl, List.append_nil] at r1
    refine ⟨by rw [hsw, ← List.map_drop]; exact r1.symm, ?_⟩
    intro x hx
    obtain ⟨m1, m2, hok⟩ := trace_each h4 x hx
    refine ⟨?_, ?_⟩
    · obtain ⟨w, w1, w2, w3⟩ := hok.first
      refine ⟨w, w1, ?_, ?_⟩
      · rw [← w2]; unfold wordCount
        rw [BitVec.toNat_ushiftRight, BitVec.toNat_and, Nat.shiftRight_and_distrib]
        have : (0xffff0000#32).toNat >>> 16 = 2 ^ 16 - 1 := by decide
        rw [this, Nat.and_two_pow_sub_one_eq_mod, Nat.shiftRight_eq_div_pow]
        have := w.isLt
        omega
      · rw [← w3]; unfold opcodeOf
        rw [BitVec.toNat_and]
        have : (0x0000ffff#32).toNat = 2 ^ 16 - 1 := by decide
        rw [this, Nat.and_two_pow_sub_one_eq_mod]
    · rcases hok.tiles with ⟨t1, t2⟩ | ⟨t1, t2, -⟩
      · refine Or.inl ⟨t1, fun hpos => ?_⟩
        rw [t2]
        apply Nat.mod_eq_of_lt
        have hle : ∀ (a b : Nat) (os : List POperand), Spec.Tiles a os b → (∀ o ∈ os, 0 < o.nwords) →
            a + os.length ≤ b := by
          intro a b os
          induction os generalizing a with
          | nil => intro h _; simp only [Spec.Tiles] at h; simp; omega
          | cons o os ih =>
            intro h hp
            have := ih _ h.2 (fun o ho => hp o (by simp [ho]))
            have := hp o (by simp)
            simp only [List.length_cons]; omega
        have := hle _ _ _ t1 hpos
        obtain ⟨w, w1, w2, w3⟩ := hok.first
        have := wordCount_le w
        omega
      · exact Or.inr ⟨t1, t2⟩

/-! ## C04 -/

/-- C04. The non-zero result ids reported are pairwise distinct (whatever the final code),
no id operand is 0, and an instruction with a result-id (type-id) operand is reported with
a non-zero result id (type id) that is one of its operand words. -/
theorem parse_ids (G : Grammar) (host : Endian) (maxVersion : Word) (unk : Bool) (ws : List Word)
    (eh : Option (Endian × Header)) (xs : List Inst) (c : Int)
    (h : Spec.observe G host maxVersion unk ws = some ((eh, xs), c)) :
    ((xs.map (·.resultId)).filter (fun r => r != 0)).Nodup ∧
    ∀ x ∈ xs,
      (∀ o ∈ x.operands, o.type.isId = true → o.nwords = 1 ∧ ∃ w, x.words[o.offset]? = some w ∧ w ≠ 0) ∧
      (∀ o ∈ x.operands, o.type = .RESULT_ID → x.resultId ≠ 0) ∧
      (∀ o ∈ x.operands, o.type = .TYPE_ID → x.typeId ≠ 0) ∧
      (unk = false → x.resultId ≠ 0 → ∃ o ∈ x.operands, o.type = .RESULT_ID ∧
        x.words[o.offset]? = some x.resultId) ∧
      (unk = false → x.typeId ≠ 0 → ∃ o ∈ x.operands, o.type = .TYPE_ID ∧
        x.words[o.offset]? = some x.typeId) := by
  cases eh with
  | none => rw [(observe_none h).1]; simp
  | some eh =>
    obtain ⟨h1, h2, h3, h4⟩ := observe_ok h
    refine ⟨(trace_results h4).1, fun x hx => ?_⟩
    obtain ⟨m1, m2, hok⟩ := trace_each h4 x hx
    exact ⟨hok.ids, hok.hasRes, hok.hasType, hok.resultOp, hok.typeOp⟩

/-! ## C05 -/

/-- C05, callbacks. A caller with arbitrary callbacks and state sees what the recording
caller sees, up to the first callback that refuses, whose code is returned. -/
theorem parse_feed (G : Grammar) (host : Endian) (maxVersion : Word) (unk : Bool) (ws : List Word)
    (eh : Option (Endian × Header)) (xs : List Inst) (c : Int)
    (h : Spec.observe G host maxVersion unk ws = some ((eh, xs), c))
    {σ : Type} (hcb : σ → Endian → Header → σ × Int) (cb : σ → Inst → σ × Int) (s : σ) :
    parse G host maxVersion unk hcb cb ws s =
      match eh with
      | none => some (s, c)
      | some (e, hd) =>
        if (hcb s e hd).2 ≠ 0 then some (hcb s e hd)
        else some (Spec.feed cb (hcb s e hd).1 xs c) := by
  cases eh with
  | none => exact (observe_none h).2.2 _ _ _ _
  | some eh =>
    obtain ⟨e, hd⟩ := eh
    obtain ⟨h1, h2, h3, h4⟩ := observe_ok h
    simp only
    rcases parse_cases G host maxVersion unk hcb cb ws s with ⟨c', -, g1⟩ | ⟨e', h', g1, g2, g3, g4⟩
    · unfold Spec.observe at h; rw [g1] at h; simp at h
    · rw [g2] at h2
      simp only [Option.some.injEq] at h2
      subst h2
      rw [g3] at h3
      simp only [Option.some.injEq] at h3
      subst h3
      rw [g4]
      split
      · rfl
      · exact moduleLoop_feed h4

/-- C05, prefix. Whatever follows the `k`-th instruction has no influence on the first `k`:
the module cut there succeeds with exactly those. -/
theorem parse_prefix (G : Grammar) (hG : Spec.GrammarOk G) (host : Endian) (maxVersion : Word) (unk : Bool)
    (ws : List Word) (eh : Endian × Header) (xs : List Inst) (c : Int)
    (h : Spec.observe G host maxVersion unk ws = some ((some eh, xs), c)) (k : Nat) :
    Spec.observe G host maxVersion unk
        (ws.take (5 + ((xs.take k).map (fun x => x.words.length)).sum)) =
      some ((some eh, xs.take k), 0) := by
  obtain ⟨e, hd⟩ := eh
  obtain ⟨h1, h2, h3, h4⟩ := observe_ok h
  have ht := trace_take hG h1 m5_imports h4 k
  generalize hn : ((xs.take k).map (fun x => x.words.length)).sum = n at ht ⊢
  have hm : m5.idx = 5 := rfl
  rw [hm] at ht
  have hlen : 5 ≤ (ws.take (5 + n)).length := by rw [List.length_take]; omega
  have hget : ∀ j, j < 5 → (ws.take (5 + n))[j]? = ws[j]? := fun j hj =>
    List.getElem?_take_of_lt (by omega)
  have hend : binaryEndianness host (ws.take (5 + n)) = some e := by
    rw [← h2]
    cases ws with
    | nil => simp at h1
    | cons w ws => rw [show 5 + n = (4 + n) + 1 by omega, List.take_succ_cons]; rfl
  have hhd : headerGet host e maxVersion (ws.take (5 + n)) = some (some hd) := by
    rw [← h3]
    unfold headerGet
    rw [if_neg (by omega), if_neg (by omega), hget 0 (by omega), hget 1 (by omega), hget 2 (by omega),
      hget 3 (by omega), hget 4 (by omega)]
  unfold Spec.observe parse
  rw [if_neg (by omega), hend]
  simp only [hhd, ne_eq, not_true_eq_false, if_false]
  rw [show (⟨5, fun _ => none, fun _ => none, fun _ => none⟩ : MState) = m5 from rfl, trace_of_moduleLoop, ht]
  rfl

/-! ## C06 -/

namespace Spec

/-- The condition on a header. -/
def HeaderOk (maxVersion : Word) (ws : List Word) : Prop :=
  5 ≤ ws.length ∧ (ws.head? = some magic ∨ ws.head? = some (bswap magic)) ∧
  ∃ v, (hostOrder ws)[1]? = some v ∧ v.toNat % 256 = 0 ∧ v.toNat / 2 ^ 24 = 0 ∧
    2 ^ 16 ≤ v.toNat ∧ v.toNat ≤ maxVersion.toNat

noncomputable instance (mv : Word) (ws : List Word) : Decidable (HeaderOk mv ws) :=
  Classical.propDecidable _

end Spec

theorem parse_header_aux (host e : Endian) (mv : Word) (ws : List Word) (h5 : 5 ≤ ws.length)
    (he : binaryEndianness host ws = some e) :
    headerGet host e mv ws = some
      (if Spec.HeaderOk mv ws then
        some ⟨(Spec.hostOrder ws).getD 0 0, (Spec.hostOrder ws).getD 1 0, (Spec.hostOrder ws).getD 2 0,
          (Spec.hostOrder ws).getD 3 0, (Spec.hostOrder ws).getD 4 0⟩
       else none) := by
  obtain ⟨g1, g2, g3⟩ := swap_eq _ _ _ he
  have hho := hostOrder_eq (ws := ws) (swap := !isHostEndian host e) (by rw [g1])
  obtain ⟨w0, w1, w2, w3, w4, r, rfl⟩ : ∃ a b c d f r, ws = a :: b :: c :: d :: f :: r := by
    match ws, h5 with
    | a :: b :: c :: d :: f :: r, _ => exact ⟨a, b, c, d, f, r, rfl⟩
  unfold headerGet Spec.HeaderOk
  rw [if_neg (by simp)]
  simp only [hho, List.getElem?_cons_zero, List.getElem?_cons_succ, List.map_cons, List.getD_cons_zero,
    List.getD_cons_succ, fixWord_eq, g3, h5, true_and, Option.some.injEq, exists_eq_left']
  generalize hv : fixW (!isHostEndian host e) w1 = v
  have a1 : (v &&& 0x000000ff#32) = 0 ↔ v.toNat % 256 = 0 := by
    rw [← BitVec.toNat_inj, BitVec.toNat_and]
    have : (0x000000ff#32).toNat = 2 ^ 8 - 1 := by decide
    rw [this, Nat.and_two_pow_sub_one_eq_mod]
    simp
  have a2 : (v &&& 0xff000000#32) = 0 ↔ v.toNat / 2 ^ 24 = 0 := by
    have key : ((v &&& 0xff000000#32) >>> 24).toNat = v.toNat / 2 ^ 24 := by
      rw [BitVec.toNat_ushiftRight, BitVec.toNat_and, Nat.shiftRight_and_distrib]
      have : (0xff000000#32).toNat >>> 24 = 2 ^ 8 - 1 := by decide
      rw [this, Nat.and_two_pow_sub_one_eq_mod, Nat.shiftRight_eq_div_pow]
      have := v.isLt
      omega
    constructor
    · intro h; rw [← key, h]; rfl
    · intro h
      have h0 : v.toNat < 2 ^ 24 := by omega
      apply BitVec.eq_of_getLsbD_eq
      intro i hi
      rw [BitVec.getLsbD_and]
      by_cases hi2 : i < 24
      · have : (0xff000000#32).getLsbD i = false := by
          revert i; decide
        rw [this]; simp
      · have : v.getLsbD i = false := by
          rw [← BitVec.testBit_toNat]
          exact Nat.testBit_lt_two_pow (Nat.lt_of_lt_of_le h0 (Nat.pow_le_pow_right (by omega) (by omega)))
        rw [this]; simp
  have a3 : v < minVersion ↔ v.toNat < 2 ^ 16 := by
    rw [BitVec.lt_def]; have : minVersion.toNat = 2 ^ 16 := by decide
    rw [this]
  have a4 : v > mv ↔ mv.toNat < v.toNat := by rw [gt_iff_lt, BitVec.lt_def]
  simp only [ne_eq, a1, a2, a3, a4]
  by_cases b1 : v.toNat % 256 = 0 <;> by_cases b2 : v.toNat / 2 ^ 24 = 0 <;>
    by_cases b3 : v.toNat < 2 ^ 16 <;> by_cases b4 : mv.toNat < v.toNat <;>
    simp [b1, b2, b3, b4, Nat.not_lt.1, Nat.not_le.2] <;> omega

/-- C06. The header callback happens exactly for well-formed headers, with the module's
byte order and the five words in host order. Otherwise no callback happens and the code is
`SPV_ERROR_INVALID_BINARY` for a missing magic number or short buffer and
`SPV_ERROR_INTERNAL` for a bad version. -/
theorem parse_header {σ : Type} (G : Grammar) (host : Endian) (maxVersion : Word) (unk : Bool)
    (cb : σ → Inst → σ × Int) (ws : List Word) (s : σ) :
    (Spec.HeaderOk maxVersion ws →
      ∀ hcb : σ → Endian → Header → σ × Int, ∀ s' c, c ≠ 0 →
        hcb s (if ws.head? = some Spec.magic then host else host.other)
          ⟨(Spec.hostOrder ws).getD 0 0, (Spec.hostOrder ws).getD 1 0, (Spec.hostOrder ws).getD 2 0,
          (Spec.hostOrder ws).getD 3 0, (Spec.hostOrder ws).getD 4 0⟩ = (s', c) →
        parse G host maxVersion unk hcb cb ws s = some (s', c)) ∧
    (¬ Spec.HeaderOk maxVersion ws →
      ∀ hcb : σ → Endian → Header → σ × Int, parse G host maxVersion unk hcb cb ws s =
        some (s, if ws.length < 5 ∨ ¬ (ws.head? = some Spec.magic ∨ ws.head? = some (bswap Spec.magic))
          then -4 else -1)) := by
  refine ⟨?_, ?_⟩
  · intro hok hcb s' c hc hcall
    obtain ⟨h5, hmag, -⟩ := id hok
    obtain ⟨e, he⟩ : ∃ e, binaryEndianness host ws = some e := by
      cases ws with
      | nil => simp at h5
      | cons w ws =>
        rw [binaryEndianness_eq]
        simp only [List.head?_cons, Option.some.injEq] at hmag
        rcases hmag with h | h
        · exact ⟨host, by rw [if_pos h]⟩
        · subst h; exact ⟨host.other, by rw [if_neg (by decide), if_pos (by rw [bswap_bswap])]⟩
    have hee := (swap_eq _ _ _ he).2.1
    rw [← hee] at hcall
    unfold parse
    rw [if_neg (by omega), he]
    simp only [parse_header_aux host e maxVersion ws h5 he, if_pos hok, hcall]
    rw [if_pos hc]
  · intro hno hcb
    unfold parse
    by_cases h5 : ws.length < 5
    · simp [h5, cInvalidBinary]
    · rw [if_neg h5]
      cases he : binaryEndianness host ws with
      | none =>
        have hm : ¬ (ws.head? = some Spec.magic ∨ ws.head? = some (bswap Spec.magic)) := by
          intro hmag
          cases ws with
          | nil => simp at h5
          | cons w ws =>
            rw [binaryEndianness_eq] at he
            simp only [List.head?_cons, Option.some.injEq] at hmag
            rcases hmag with h | h
            · rw [if_pos h] at he; simp at he
            · subst h; rw [if_neg (by decide), if_pos (by rw [bswap_bswap])] at he; simp at he
        simp [hm, cInvalidBinary]
      | some e =>
        have hm := (swap_eq _ _ _ he).2.2
        simp only [parse_header_aux host e maxVersion ws (by omega) he, if_neg hno]
        rw [if_neg]
        · rfl
        · intro h; rcases h with h | h
          · omega
          · exact h hm

/-! ## C03 -/

theorem At_walk {swap : Bool} {ws : List Word} {k j : Nat} (h : At swap ws k j) :
    ∀ n, ws.length - k ≤ n → ∀ w, ws[j]? = some w →
      opcodeOf (fixW swap w) ∈ Spec.walk n ((ws.map (fixW swap)).drop k) := by
  induction h with
  | here k =>
    intro n hn w hw
    obtain ⟨hlt, hget⟩ := List.getElem?_eq_some_iff.1 hw
    rw [List.drop_eq_getElem_cons (by simpa using hlt)]
    cases n with
    | zero => omega
    | succ n => simp [Spec.walk, hget]
  | @next k j v hv hj ih =>
    intro n hn w hw
    by_cases h0 : wordCount (fixW swap v) = 0
    · rw [h0] at ih; exact ih n hn w hw
    · obtain ⟨hlt, hget⟩ := List.getElem?_eq_some_iff.1 hv
      rw [List.drop_eq_getElem_cons (by simpa using hlt)]
      cases n with
      | zero => omega
      | succ n =>
        simp only [Spec.walk, List.getElem_map, hget, List.mem_cons]
        right
        rw [List.drop_drop, show k + 1 + (wordCount (fixW swap v) - 1) = k + wordCount (fixW swap v) by omega]
        exact ih n (by omega) w hw

/-- C03 (partial: modules without `OpExtInstImport`). Parsing a module and its byte-swapped
copy gives the same header words, the same instructions and the same code. -/
theorem parse_byte_order_partial (G : Grammar) (host : Endian) (maxVersion : Word) (unk : Bool)
    (ws : List Word) (hno : opExtInstImport ∉ Spec.opcodes (Spec.hostOrder ws)) :
    (Spec.observe G host maxVersion unk (ws.map bswap)).map (fun r => (r.1.1.map (·.2), r.1.2, r.2)) =
      (Spec.observe G host maxVersion unk ws).map (fun r => (r.1.1.map (·.2), r.1.2, r.2)) := by
  unfold Spec.observe parse
  rw [List.length_map]
  by_cases h5 : ws.length < 5
  · rw [if_pos h5, if_pos h5]
  · rw [if_neg h5, if_neg h5]
    have hmm : bswap Spec.magic ≠ Spec.magic := by decide
    have hends : (binaryEndianness host ws = none ∧ binaryEndianness host (ws.map bswap) = none) ∨
        ∃ e, binaryEndianness host ws = some e ∧ binaryEndianness host (ws.map bswap) = some e.other := by
      cases ws with
      | nil => simp at h5
      | cons w ws =>
        rw [List.map_cons, binaryEndianness_eq, binaryEndianness_eq, bswap_bswap]
        by_cases h1 : w = Spec.magic
        · right; refine ⟨host, by rw [if_pos h1], ?_⟩
          rw [if_neg (by rw [h1]; exact hmm), if_pos h1]
        · by_cases h2 : bswap w = Spec.magic
          · right; refine ⟨host.other, by rw [if_neg h1, if_pos h2], ?_⟩
            rw [if_pos h2]; cases host <;> rfl
          · left; exact ⟨by rw [if_neg h1, if_neg h2], by rw [if_neg h2, if_neg h1]⟩
    rcases hends with ⟨e1, e2⟩ | ⟨e, e1, e2⟩
    · rw [e1, e2]
    · rw [e1, e2]
      simp only
      have hiso : isHostEndian host e.other = !isHostEndian host e := by cases host <;> cases e <;> rfl
      have hfix : ∀ w, fixWord host e.other (bswap w) = fixWord host e w := by
        intro w; rw [fixWord_eq, fixWord_eq, hiso, fixW_not_bswap]
      have hhd : headerGet host e.other maxVersion (ws.map bswap) = headerGet host e maxVersion ws := by
        unfold headerGet
        simp only [List.length_map, List.getElem?_map]
        split
        · rfl
        · cases ws[0]? <;> cases ws[1]? <;> cases ws[2]? <;> cases ws[3]? <;> cases ws[4]? <;> simp [hfix]
      rw [hhd]
      split
      · rfl
      · rfl
      · rename_i hd hhe
        simp only [ne_eq, not_true_eq_false, if_false]
        rw [trace_of_moduleLoop, trace_of_moduleLoop, hiso]
        rw [trace_swap]
        · simp [Option.map_map, Function.comp_def]
        · intro j hj w hw hc
          apply hno
          have hho := hostOrder_eq (ws := ws) (swap := !isHostEndian host e) (by rw [(swap_eq _ _ _ e1).1])
          rw [hho]
          unfold Spec.opcodes
          rw [← hc]
          exact At_walk hj _ (by simp) w hw

end Verif.Binary
