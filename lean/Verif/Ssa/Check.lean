import Verif.Ssa.Props

/-
# A check that implies validity, for the concrete functions of `Example.lean`
-/

set_option linter.unusedSimpArgs false
set_option linter.unusedVariables false

namespace Verif.Ssa

theorem trace_block {P : Prog} {b : Block} : ∀ {k : Nat} {t : List Pt}, Trace P ((b, k) :: t) →
    ∀ j ≤ k, (b, j) ∈ (b, k) :: t
  | 0, t, _, j, hj => by
    have : j = 0 := by omega
    subst this; simp
  | k + 1, t, h, j, hj => by
    cases h with
    | step h hk =>
      by_cases e : j = k + 1
      · subst e; simp
      · exact List.mem_cons_of_mem _ (trace_block h j (by omega))

/-- The block before. -/
theorem trace_pred {P : Prog} {b : Block} {p : Block} (hp : P.preds b = [p]) (hb : b ≠ P.entry) :
    ∀ {k : Nat} {t : List Pt}, Trace P ((b, k) :: t) → ∀ j ≤ (P.insts p).length, (p, j) ∈ (b, k) :: t
  | 0, t, h, j, hj => by
    cases h with
    | start => exact absurd rfl hb
    | edge h hk hq =>
      rw [hp] at hq
      simp at hq
      subst hq hk
      exact List.mem_cons_of_mem _ (trace_block h j hj)
  | k + 1, t, h, j, hj => by
    cases h with
    | step h hk => exact List.mem_cons_of_mem _ (trace_pred hp hb h j hj)

/-- Position of the definition of `x` in a block. -/
def defPos (x : Id) (is : List Inst) : Option Nat := is.findIdx? fun i => i.result == some x

def notDef (P : Prog) (x : Id) : Bool := P.order.all fun b => (defPos x (P.insts b)).isNone

/-- Defined nowhere, before in the block, or in the only predecessor. -/
def operandOK (P : Prog) (b : Block) (k : Nat) (x : Id) : Bool :=
  notDef P x || (match defPos x (P.insts b) with | some j => j < k | none => false) ||
    match P.preds b with
    | [p] => b != P.entry && (defPos x (P.insts p)).isSome
    | _ => false

def singleOK (P : Prog) : List Block → List Block → Bool
  | _, [] => true
  | pre, b :: bs =>
    (match P.preds b with | [p] => pre.contains p | _ => true) && singleOK P (pre ++ [b]) bs

def uniqueOK (P : Prog) : Bool :=
  P.order.all fun b => P.order.all fun b' =>
    (List.range (P.insts b).length).all fun k => (List.range (P.insts b').length).all fun k' =>
      (b == b' && k == k') ||
        match ((P.insts b)[k]?.bind Inst.result), ((P.insts b')[k']?.bind Inst.result) with
        | some x, some y => x != y
        | _, _ => true

def idsOK (P : Prog) (fresh : Id) : Bool :=
  P.order.all fun b => (P.insts b).all fun i =>
    (i.operands ++ i.result.toList).all fun x => x != 0 && decide (x < fresh)

def validB (P : Prog) (fresh : Id) : Bool :=
  P.order.contains P.entry && (P.preds P.entry).isEmpty &&
  (P.order.all fun b => !(P.preds b).isEmpty || b == P.entry) &&
  decide P.order.Nodup && singleOK P [] P.order && uniqueOK P &&
  (P.order.all fun b => (List.range (P.insts b).length).all fun k =>
    match (P.insts b)[k]? with
    | none => true
    | some i => i.operands.all (operandOK P b k)) &&
  idsOK P fresh

theorem singleOK_spec {P : Prog} : ∀ {bs pre0 : List Block}, singleOK P pre0 bs = true →
    ∀ pre b post p, bs = pre ++ b :: post → P.preds b = [p] → p ∈ pre0 ++ pre
  | [], _, _, pre, b, post, p, e, _ => by simp at e
  | c :: bs, pre0, h, pre, b, post, p, e, hp => by
    simp only [singleOK, Bool.and_eq_true] at h
    cases pre with
    | nil =>
      simp at e
      rw [e.1, hp] at h
      simpa using h.1
    | cons d pre =>
      simp at e
      have := singleOK_spec h.2 pre b post p e.2 hp
      rw [e.1] at this
      simpa using this

theorem defPos_some {P : Prog} {x : Id} {b : Block} {j : Nat} (h : defPos x (P.insts b) = some j) :
    DefinedAt P x (b, j + 1) := by
  unfold defPos at h
  rw [List.findIdx?_eq_some_iff_getElem] at h
  obtain ⟨h1, h2, _⟩ := h
  exact ⟨j, _, rfl, List.getElem?_eq_getElem h1, by simpa using h2⟩

theorem notDef_spec {P : Prog} {x : Id} (h : notDef P x = true) (q : Pt) (hq : q.1 ∈ P.order) :
    ¬ DefinedAt P x q := by
  rintro ⟨k, i, _, hi, hr⟩
  simp only [notDef, List.all_eq_true] at h
  have := h q.1 hq
  simp only [defPos, Option.isNone_iff_eq_none, List.findIdx?_eq_none_iff] at this
  have := this i (List.mem_of_getElem? hi)
  simp [hr] at this

theorem valid_of_check {P : Prog} {fresh u : Id} (hu : ∀ v, P.undef v = u) (hu0 : u ≠ 0) (hul : u < fresh)
    (hud : notDef P u = true) (hfin : ∀ c, c ∉ P.order → P.preds c = [])
    (h : validB P fresh = true) : Valid P fresh := by
  simp only [validB, Bool.and_eq_true] at h
  obtain ⟨⟨⟨⟨⟨⟨⟨h1, h2⟩, h3⟩, h4⟩, h5⟩, h6⟩, h7⟩, h8⟩ := h
  constructor
  · simpa using h1
  · simpa using h2
  · intro b hb he
    simp only [List.all_eq_true] at h3
    have := h3 b hb
    rw [he] at this
    simpa using this
  · intro b _ c hc
    by_cases hm : c ∈ P.order
    · exact hm
    · rw [hfin c hm] at hc; cases hc
  · simpa using h4
  · intro pre b post p e hp
    simpa using singleOK_spec h5 pre b post p e hp
  · intro x q q' hq hq' ⟨k, i, e, hi, hr⟩ ⟨k', i', e', hi', hr'⟩
    simp only [uniqueOK, List.all_eq_true, List.mem_range] at h6
    have := h6 q.1 hq q'.1 hq' k (List.getElem?_eq_some_iff.1 hi).1 k' (List.getElem?_eq_some_iff.1 hi').1
    rw [hi, hi'] at this
    simp only [Option.bind_some, hr, hr'] at this
    simp at this
    exact Prod.ext this.1 (by rw [e, e', this.2])
  · intro t b k i x ht hi hx
    have hb : b ∈ P.order := by
      clear hi hx h7
      -- every block of a trace is reachable
      have : ∀ t', Trace P t' → ∀ q ∈ t', q.1 ∈ P.order := by
        intro t' ht'
        induction ht' with
        | start => intro q hq; simp at hq; subst hq; simpa using h1
        | @step b k t h hk ih =>
          intro q hq
          rcases List.mem_cons.1 hq with rfl | hq
          · exact ih (b, k) (List.mem_cons_self ..)
          · exact ih q hq
        | @edge b k t c h hk hp ih =>
          intro q hq
          rcases List.mem_cons.1 hq with rfl | hq
          · by_cases hm : c ∈ P.order
            · exact hm
            · rw [hfin c hm] at hp; cases hp
          · exact ih q hq
      exact this _ ht (b, k) (List.mem_cons_self ..)
    simp only [List.all_eq_true, List.mem_range] at h7
    have := h7 b hb k (List.getElem?_eq_some_iff.1 hi).1
    rw [hi] at this
    simp only [List.all_eq_true] at this
    have := this x hx
    simp only [operandOK, Bool.or_eq_true] at this
    rcases this with (h | h) | h
    · exact .inr (notDef_spec h)
    · left
      cases hd : defPos x (P.insts b) with
      | none => rw [hd] at h; cases h
      | some j =>
        rw [hd] at h
        simp at h
        exact ⟨_, trace_block ht (j + 1) (by omega), defPos_some hd⟩
    · left
      split at h
      · rename_i p hp
        simp only [Bool.and_eq_true, bne_iff_ne, Option.isSome_iff_exists] at h
        obtain ⟨hne, j, hj⟩ := h
        have hl : j + 1 ≤ (P.insts p).length := by
          unfold defPos at hj
          rw [List.findIdx?_eq_some_iff_getElem] at hj
          exact hj.1
        exact ⟨_, trace_pred hp hne ht (j + 1) hl, defPos_some hj⟩
      · cases h
  · intro b hb i hi x hx
    simp only [idsOK, List.all_eq_true] at h8
    have := h8 b hb i hi x (by
      rcases hx with hx | hx
      · simp [hx]
      · simp [hx])
    simpa using this
  · intro v; rw [hu]; exact ⟨hu0, hul⟩
  · intro v q hq; rw [hu]; exact notDef_spec hud q hq

end Verif.Ssa
