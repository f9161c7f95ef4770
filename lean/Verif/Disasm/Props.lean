import Verif.Disasm.Module
/-!
# C13: assembling a disassembled module reproduces its words
-/
set_option linter.unusedSimpArgs false
set_option linter.unusedVariables false
namespace Verif.Disasm
open Verif.ParseNumber (Text)
open Verif.Binary (Grammar Endian)
open Verif.Asm (AGrammar assemble)
open Spec

/-- The module in host byte order, as far as the parser is concerned. -/
theorem observe_host {G : Grammar} {host : Endian} {mv : Word} {ws : List Word} {e : Endian}
    {hd : Binary.Header} {xs : List Binary.Inst}
    (h : Binary.Spec.observe G host mv false ws = some ((some (e, hd), xs), 0))
    (horder : ws.head? = some Binary.Spec.magic ∨
      Binary.opExtInstImport ∉ Binary.Spec.opcodes (Binary.Spec.hostOrder ws)) :
    Binary.trace G false false (Binary.Spec.hostOrder ws) Binary.m5 = some (xs, 0) ∧
      5 ≤ (Binary.Spec.hostOrder ws).length := by
  obtain ⟨h1, h2, h3, h4⟩ := Binary.observe_ok h
  have hho := Binary.hostOrder_eq (ws := ws) (swap := !Binary.isHostEndian host e)
    (by rw [(Binary.swap_eq _ _ _ h2).1])
  have hlen : (Binary.Spec.hostOrder ws).length = ws.length := by rw [hho, List.length_map]
  refine ⟨?_, by omega⟩
  cases hs : !Binary.isHostEndian host e with
  | false =>
    rw [hs] at h4 hho
    rw [hho, Binary.fixW_false]; simpa using h4
  | true =>
    have hne : ws.head? ≠ some Binary.Spec.magic := by
      have := (Binary.swap_eq _ _ _ h2).1
      intro hc; rw [this] at hs; simp [hc] at hs
    have hno := horder.resolve_left hne
    have hho' := hho
    rw [hs] at h4 hho'
    have hsw := Binary.trace_swap (G := G) (unk := false) (swap := true) (ws := ws) (m := Binary.m5) (by
      intro j hj w hw hc
      apply hno
      rw [hho']
      unfold Binary.Spec.opcodes
      rw [← hc]
      exact Binary.At_walk hj _ (by simp) w hw)
    rw [h4] at hsw
    rw [hho', Binary.fixW_true]
    exact hsw

/-- C13, with the exceptions listed in `Faithful`. Take a module the parser accepts (in the byte
order of the host, or without `OpExtInstImport`), all of whose instructions text can express. Then
the disassembler gives a text, whatever the header, indentation, comment and byte offset options
are, and the assembler, told to preserve numeric ids, accepts the text and gives the same words
after the header, in the byte order of the host.

Partial: the exceptions, names other than numbers, nested indentation, reordered blocks, colours,
and the option that passes unknown instructions through. -/
theorem roundtrip_partial (G : Grammar) (A : AGrammar) (N : Names) (ag : Agree G A N) (host : Endian)
    (maxVersion : Word) (opt : Options) (hunk : opt.unk = false) (ws : List Word) (xs : List Binary.Inst)
    (h : Binary.Spec.insts G host maxVersion false ws = some (xs, 0))
    (horder : ws.head? = some Binary.Spec.magic ∨
      Binary.opExtInstImport ∉ Binary.Spec.opcodes (Binary.Spec.hostOrder ws))
    (hlen : ws.length < 2 ^ 32 - 2) (hf : ∀ x ∈ xs, Faithful A N opt x) (version : Word) :
    ∃ text bound, binaryToText G N host maxVersion opt ws = some (.ok text) ∧
      assemble A version true text =
        .ok ([Binary.Spec.magic, version, 0x00070000#32, bound, 0] ++ (Binary.Spec.hostOrder ws).drop 5) := by
  unfold Binary.Spec.insts at h
  obtain ⟨⟨⟨eh, ys⟩, c⟩, hobs, he⟩ := Option.map_eq_some_iff.1 h
  simp only [Prod.mk.injEq] at he
  obtain ⟨rfl, rfl⟩ := he
  cases eh with
  | none => exact absurd rfl (Binary.observe_none hobs).2.1
  | some eh =>
    obtain ⟨e, hd⟩ := eh
    obtain ⟨htr, h5⟩ := observe_host hobs horder
    have hlen' : (Binary.Spec.hostOrder ws).length < 2 ^ 32 - 2 := by
      unfold Binary.Spec.hostOrder; split
      · exact hlen
      · rw [List.length_map]; exact hlen
    have hpr := trace_printed ag hlen' htr hf (CtxRel.init [] 5)
    have hcb : ∀ s : St, s.idComments = St.init.idComments → CommentsOk s.idComments := by
      intro s hs w t ht; rw [hs] at ht; cases ht
    obtain ⟨s', t, f1, o1, hpc⟩ := handle_all ag hunk hpr hf
      (s := handleHeader N opt hd .init) (hcb _ rfl)
    have hblank : Blank (handleHeader N opt hd .init).out := by
      unfold handleHeader
      simp only [St.init, List.nil_append]
      split
      · exact blank_header ag.generatorLine hd
      · exact Blank.nil
    have htext : binaryToText G N host maxVersion opt ws = some (.ok s'.out) := by
      unfold binaryToText
      rw [hunk, Binary.parse_feed G host maxVersion false ws _ _ _ hobs]
      simp only [ne_eq, not_true_eq_false, if_false, Option.map_some, f1, if_true]
    have hpc' := hpc ('\n' :: (handleHeader N opt hd .init).out) (gap_cons (Or.inr rfl) hblank)
    rw [List.cons_append, ← o1] at hpc'
    obtain ⟨bound, hb⟩ := assemble_text ag hlen' htr hf hpc' version
    refine ⟨s'.out, bound, htext, ?_⟩
    rw [hb]
    obtain ⟨rest, r1, r2⟩ := Binary.trace_words htr h5
    rw [r2 rfl, List.append_nil] at r1
    have : (Binary.Spec.hostOrder ws).drop 5 = (ys.map (·.words)).flatten := by
      rw [← r1, Binary.fixW_false]; simp [Binary.m5]
    rw [this]; rfl

end Verif.Disasm
