import Verif.Disasm.Text
import Verif.Binary.Props
/-!
The text of a whole module, and the assembler on it.
-/
set_option linter.unusedSimpArgs false
set_option linter.unusedVariables false
namespace Verif.Disasm
open Verif.ParseNumber (Text NumberType)
open Verif.Binary (OT Grammar MState POperand parseInstruction trace)
open Verif.Asm hiding Inst Word
open Verif.Asm.Spec (Separated)
open Spec

/-- The text of instructions, after something they are separated from. -/
inductive Pieces (G : Grammar) (N : Names) : List Binary.Inst → Text → Prop
  | nil {g : Text} : Gap g → Pieces G N [] g
  | cons {g t name T : Text} {x : Binary.Inst} {xs : List Binary.Inst} : Gap g → Printed G N x name T →
    Pieces G N xs t → Pieces G N (x :: xs) (g ++ (coreText x.resultId name T ++ t))

theorem Pieces.separated {G : Grammar} {N : Names} {xs : List Binary.Inst} {t : Text} (h : Pieces G N xs t) :
    Separated t := by
  cases h with
  | nil hg => simpa using hg.sep []
  | cons hg _ _ => exact hg.sep _

/-- The first instruction of the text, or nothing. -/
theorem Pieces.tail {G : Grammar} {N : Names} {xs : List Binary.Inst} {t : Text} (h : Pieces G N xs t) :
    TailOk t := by
  induction h with
  | nil hg =>
    rename_i g
    have : advance g = none := by
      have := hg.blank.advance []
      rw [List.append_nil] at this
      rw [this]; simp [advance, advanceTo]
    refine ⟨⟨by simpa using hg.sep [], ?_⟩, Or.inl this⟩
    intro r hr; rw [this] at hr; cases hr
  | cons hg hp h ih =>
    rename_i g t name T x xs
    have hs := (hp.sep t ih.sep).separated
    obtain ⟨h1, h2, h3⟩ := isStart_core (r := x.resultId) hp.nameOk hs
    have ha := hg.blank.advance (coreText x.resultId name T ++ t)
    rw [h1] at ha
    refine ⟨⟨hg.sep _, ?_⟩, Or.inr ⟨_, ha, h2⟩⟩
    intro r hr
    rw [ha] at hr; cases hr
    exact h3

/-- The text is at least as long as the number of instructions. -/
theorem core_length (r : Word) (name T : Text) : 1 ≤ (coreText r name T).length := by
  unfold coreText; simp only [List.length_append, List.length_cons]; omega

theorem Pieces.length {G : Grammar} {N : Names} {xs : List Binary.Inst} {t : Text} (h : Pieces G N xs t) :
    xs.length ≤ t.length := by
  induction h with
  | nil => simp
  | cons hg hp h ih =>
    rename_i g t name T x xs
    have := core_length x.resultId name T
    simp only [List.length_append, List.length_cons]; omega

/-- All instructions have a line. -/
theorem trace_printed {G : Grammar} {A : AGrammar} {N : Names} (ag : Agree G A N) {opt : Options}
    {ws : List Word} {m : MState} {xs : List Binary.Inst} {ctx : Ctx} (hbud : ws.length < 2 ^ 32 - 2)
    (h : trace G false false ws m = some (xs, 0)) (hf : ∀ x ∈ xs, Faithful A N opt x)
    (hctx : CtxRel [] m.idx ctx m m.idType) : ∀ x ∈ xs, ∃ name T, Printed G N x name T := by
  fun_induction trace G false false ws m generalizing xs ctx with
  | case1 => simp only [Option.some.injEq, Prod.mk.injEq] at h; rw [← h.1]; simp
  | case2 => simp at h
  | case3 m hlt m' x hp ih =>
    obtain ⟨⟨ys, c1⟩, h1, h2⟩ := Option.map_eq_some_iff.1 h
    simp only [Prod.mk.injEq] at h2
    obtain ⟨rfl, rfl⟩ := h2
    obtain ⟨ctx', name, T, inst, raw, tg, hl⟩ := line_step ag hp (hf x (List.mem_cons_self ..))
      (fun _ _ _ _ _ => Or.inl rfl) hbud hctx
    intro y hy
    rcases List.mem_cons.1 hy with rfl | hy
    · exact ⟨name, T, hl.printed⟩
    · exact ih h1 (fun x hx => hf x (List.mem_cons_of_mem _ hx)) hl.hctx y hy
  | case4 => simp at h
  | case5 => simp only [Option.some.injEq, Prod.mk.injEq] at h; rw [← h.1]; simp

theorem handle_all {G : Grammar} {A : AGrammar} {N : Names} (ag : Agree G A N) {opt : Options}
    (hunk : opt.unk = false) {xs : List Binary.Inst} (hp : ∀ x ∈ xs, ∃ name T, Printed G N x name T)
    (hf : ∀ x ∈ xs, Faithful A N opt x) {s : St} (hs : CommentsOk s.idComments) :
    ∃ s' t, Binary.Spec.feed (fun (s : Option St) x => (s.bind (handleInstruction G N opt x), 0)) (some s) xs 0 =
      (some s', 0) ∧ s'.out = s.out ++ t ∧ ∀ g, Gap g → Pieces G N xs (g ++ t) := by
  induction xs generalizing s with
  | nil => exact ⟨s, [], rfl, by simp, fun g hg => by rw [List.append_nil]; exact .nil hg⟩
  | cons x xs ih =>
    obtain ⟨name, T, hpx⟩ := hp x (List.mem_cons_self ..)
    obtain ⟨s1, b, e, e1, c1, hb, he, o1⟩ := handle_text ag hunk hpx (hf x (List.mem_cons_self ..)) hs
    obtain ⟨s', t, f1, o2, hpc⟩ := ih (fun x hx => hp x (List.mem_cons_of_mem _ hx))
      (fun x hx => hf x (List.mem_cons_of_mem _ hx)) c1
    refine ⟨s', b ++ coreText x.resultId name T ++ e ++ t, ?_, by rw [o2, o1]; simp, ?_⟩
    · rw [Binary.Spec.feed]
      simp only [Option.bind_some, e1, ne_eq, not_true_eq_false, if_false]
      exact f1
    · intro g hg
      have := Pieces.cons (G := G) (N := N) (hg.append hb) hpx (hpc e he)
      simpa using this

/-- The assembler on the text of instructions. -/
theorem assemble_pieces {G : Grammar} {A : AGrammar} {N : Names} (ag : Agree G A N) {opt : Options} {P : List Nat}
    {ws : List Word} {m : MState} {xs : List Binary.Inst} {ctx : Ctx} {t : Text} (hbud : ws.length < 2 ^ 32 - 2)
    (h : trace G false false ws m = some (xs, 0)) (hf : ∀ x ∈ xs, Faithful A N opt x)
    (hid : ∀ x ∈ xs, ∀ o ∈ x.operands, o.type.isId = true → ∀ w, x.words[o.offset]? = some w → OkId P w)
    (hctx : CtxRel P m.idx ctx m m.idType) (hpc : Pieces G N xs t) (hne : xs ≠ []) :
    ∃ s1 ctx' is, advance t = some s1 ∧ xs.length ≤ s1.length ∧
      (∀ fuel out, xs.length ≤ fuel → assembleLoop A P fuel ctx s1 out = .ok (ctx', out ++ is)) ∧
      Le P ctx.ids ctx'.ids ∧
      (∀ x ∈ xs, ∀ o ∈ x.operands, o.type.isId = true → ∀ w, x.words[o.offset]? = some w →
        (rho P ctx'.ids w).isSome) ∧
      ((P ≠ [] ∨ ∀ w, rho P ctx'.ids w = none) → is.flatMap (·.words) = (xs.map (·.words)).flatten) := by
  fun_induction trace G false false ws m generalizing xs ctx t with
  | case1 => simp only [Option.some.injEq, Prod.mk.injEq] at h; exact absurd h.1.symm hne
  | case2 => simp at h
  | case3 m hlt m' x hp ih =>
    obtain ⟨⟨ys, c1⟩, h1, h2⟩ := Option.map_eq_some_iff.1 h
    simp only [Prod.mk.injEq] at h2
    obtain ⟨rfl, rfl⟩ := h2
    obtain ⟨ctx1, name, T, inst, raw, tg, hl⟩ := line_step ag hp (hf x (List.mem_cons_self ..))
      (hid x (List.mem_cons_self ..)) hbud hctx
    cases hpc with
    | cons hg hpx hpc =>
      rename_i g t name' T'
      have en : name' = name := by have := hpx.hname; rw [hl.hname] at this; cases this; rfl
      have eT : T' = T := by have := hpx.emit; rw [hl.emit] at this; cases this; rfl
      subst en; subst eT
      have htail := hpc.tail
      obtain ⟨s1, s2, s3⟩ := isStart_core (r := x.resultId) hpx.nameOk (hpx.sep t htail.sep).separated
      have ha := hg.blank.advance (coreText x.resultId name' T' ++ t)
      rw [s1] at ha
      obtain ⟨rest, hr, henc⟩ := hl.asm t htail
      have hw : ∀ ids', Le P ctx1.ids ids' → IdsOk P m'.idx ctx1.ids →
          (P ≠ [] ∨ ∀ w, rho P ids' w = none) → inst.words = x.words := by
        intro ids' hle hok hor
        rw [hl.hinst, hl.words]
        congr 1
        apply List.map_congr_left
        rintro ⟨f, w⟩ hm
        cases f with
        | false => rfl
        | true =>
          obtain ⟨v, hv⟩ := Option.isSome_iff_exists.1 (hl.known w hm)
          rcases hor with hP | hno
          · simp only [ren, if_true, hv, Option.getD_some, rho_id hok hP hv]
          · have := hle w v hv; rw [hno] at this; cases this
      by_cases hys : ys = []
      · subst hys
        have hnone : advance t = none := by
          cases hpc with
          | nil hg =>
            have := hg.blank.advance []
            rw [List.append_nil] at this
            rw [this]; simp [advance, advanceTo]
        refine ⟨_, ctx1, [inst], ha, ?_, ?_, hl.le, ?_, ?_⟩
        · have := core_length x.resultId name' T'
          simp only [List.length_append, List.length_cons, List.length_nil]; omega
        · intro fuel out hfu
          obtain ⟨f, rfl⟩ : ∃ f, fuel = f + 1 := ⟨fuel - 1, by simp at hfu; omega⟩
          rw [assembleLoop, henc]
          simp only [hr, hnone]
        · intro y hy o ho hi w hwo
          simp only [List.mem_singleton] at hy; subst hy
          exact hl.known w (hl.ids o ho hi w hwo)
        · intro hor
          simp [hw ctx1.ids (Le.refl _ _) hl.hctx.ids hor]
      · obtain ⟨s4, ctx2, is, a1, a2, a3, a4, a5, a6⟩ := ih h1 (fun x hx => hf x (List.mem_cons_of_mem _ hx))
          (fun x hx => hid x (List.mem_cons_of_mem _ hx)) hl.hctx hpc hys
        refine ⟨_, ctx2, inst :: is, ha, ?_, ?_, hl.le.trans a4, ?_, ?_⟩
        · have := core_length x.resultId name' T'
          have := hpc.length
          simp only [List.length_append, List.length_cons]; omega
        · intro fuel out hfu
          obtain ⟨f, rfl⟩ : ∃ f, fuel = f + 1 := ⟨fuel - 1, by simp at hfu; omega⟩
          rw [assembleLoop, henc]
          simp only [hr, a1]
          rw [a3 f _ (by simp at hfu; omega)]
          simp
        · intro y hy o ho hi w hwo
          rcases List.mem_cons.1 hy with rfl | hy
          · obtain ⟨v, hv⟩ := Option.isSome_iff_exists.1 (hl.known w (hl.ids o ho hi w hwo))
            rw [a4 w v hv]; rfl
          · exact a5 y hy o ho hi w hwo
        · intro hor
          simp [hw ctx2.ids a4 hl.hctx.ids hor, a6 hor]
  | case4 => simp at h
  | case5 => simp only [Option.some.injEq, Prod.mk.injEq] at h; exact absurd h.1.symm hne

theorem advance_to {t s : Text} (h : advance t = some s) : advanceTo t = s ∧ s ≠ [] := by
  unfold advance at h
  split at h
  · cases h
  · rename_i c r he
    split at h
    · cases h
    · cases h; exact ⟨he, by simp⟩

/-- One pass of the assembler. -/
theorem run_pieces {G : Grammar} {A : AGrammar} {N : Names} (ag : Agree G A N) {opt : Options} {P : List Nat}
    {ws : List Word} {xs : List Binary.Inst} {t : Text} (hbud : ws.length < 2 ^ 32 - 2)
    (h : trace G false false ws Binary.m5 = some (xs, 0)) (hf : ∀ x ∈ xs, Faithful A N opt x)
    (hid : ∀ x ∈ xs, ∀ o ∈ x.operands, o.type.isId = true → ∀ w, x.words[o.offset]? = some w → OkId P w)
    (hpc : Pieces G N xs ('\n' :: t)) :
    ∃ ctx' is, run A P t = .ok (ctx', is) ∧
      (∀ x ∈ xs, ∀ o ∈ x.operands, o.type.isId = true → ∀ w, x.words[o.offset]? = some w →
        (rho P ctx'.ids w).isSome) ∧
      ((P ≠ [] ∨ ∀ w, rho P ctx'.ids w = none) → is.flatMap (·.words) = (xs.map (·.words)).flatten) := by
  have hnl : advanceTo ('\n' :: t) = advanceTo t := (Blank.cons (c := '\n') rfl Blank.nil) t
  have hadv : advance ('\n' :: t) = advance t := (Blank.cons (c := '\n') rfl Blank.nil).advance t
  by_cases hxs : xs = []
  · subst hxs
    refine ⟨.init, [], ?_, by simp, by simp⟩
    unfold run
    have : advanceTo t = [] := by
      cases hpc with
      | nil hg =>
        have := hg.blank []
        rw [List.append_nil, hnl] at this
        rw [this]; simp [advanceTo]
    simp [this]
  · obtain ⟨s1, ctx', is, h1, h2, h3, h4, h5, h6⟩ := assemble_pieces ag hbud h hf hid
      (CtxRel.init P 5) hpc hxs
    rw [hadv] at h1
    obtain ⟨e1, e2⟩ := advance_to h1
    refine ⟨ctx', is, ?_, h5, h6⟩
    unfold run
    simp only [e1]
    rw [if_neg e2, h3 _ _ (by omega)]
    rfl

theorem rho_numeric {ids : Ids} {w : Word} (h : (rho [] ids w).isSome) : w.toNat ∈ numericIds ids := by
  obtain ⟨v, hv⟩ := Option.isSome_iff_exists.1 h
  simp only [rho, List.not_mem_nil, if_false] at hv
  obtain ⟨i, hi, -⟩ := Option.map_eq_some_iff.1 hv
  have := lookup_mem hi
  unfold numericIds
  exact List.mem_filterMap.2 ⟨_, this, parseU32_dec _ w.isLt⟩

/-- Both passes. -/
theorem assemble_text {G : Grammar} {A : AGrammar} {N : Names} (ag : Agree G A N) {opt : Options}
    {ws : List Word} {xs : List Binary.Inst} {t : Text} (hbud : ws.length < 2 ^ 32 - 2)
    (h : trace G false false ws Binary.m5 = some (xs, 0)) (hf : ∀ x ∈ xs, Faithful A N opt x)
    (hpc : Pieces G N xs ('\n' :: t)) (version : Word) :
    ∃ bound, assemble A version true t =
      .ok ([0x07230203#32, version, 0x00070000#32, bound, 0] ++ (xs.map (·.words)).flatten) := by
  obtain ⟨c1, is1, r1, k1, w1⟩ := run_pieces (P := []) ag hbud h hf (fun _ _ _ _ _ _ _ => Or.inl rfl) hpc
  obtain ⟨c2, is2, r2, k2, w2⟩ := run_pieces (P := numericIds c1.ids) ag hbud h hf
    (fun x hx o ho hi w hw => Or.inr (rho_numeric (k1 x hx o ho hi w hw))) hpc
  refine ⟨BitVec.ofNat 32 c2.ids.bound, ?_⟩
  unfold assemble
  simp only [if_true, r1, r2]
  rw [w2]
  by_cases hP : numericIds c1.ids = []
  · right
    rw [hP] at r2 ⊢
    rw [r1] at r2
    cases r2
    intro w
    cases hr : rho [] c1.ids w with
    | none => rfl
    | some v =>
      have := rho_numeric (ids := c1.ids) (w := w) (by rw [hr]; rfl)
      rw [hP] at this; cases this
  · exact Or.inl hP

end Verif.Disasm
