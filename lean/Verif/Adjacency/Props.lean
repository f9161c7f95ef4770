import Verif.Adjacency.Model

/-!
# C42: which modules the adjacency check accepts
-/
set_option linter.unusedSimpArgs false
set_option linter.unusedVariables false

namespace Verif.Adjacency

namespace Spec

/-- Instructions that may be mixed with the phis or variables at the start of a block. -/
def Floating : Op → Prop
  | .phi | .line | .noLine | .var _ | .untypedVar _ => True
  | .extInst debugInfo shader100 => debugInfo = true ∧ shader100 = false
  | _ => False

/-- Function-storage variables. -/
def FuncVar : Op → Prop
  | .var b | .untypedVar b => b = true
  | _ => False

/-- `insts = before ++ x :: after`, and the last non-floating instruction of `before` is
`d`, which follows `before'`. -/
def LastFixed (before : List Op) (before' : List Op) (d : Op) : Prop :=
  ∃ fl, before = before' ++ d :: fl ∧ ¬ Floating d ∧ ∀ x ∈ fl, Floating x

/-- The instructions read so far end within the declarations of a function: OpFunction or
OpFunctionParameter, then only floating instructions. -/
def InHeader (before : List Op) : Prop :=
  ∃ b' d, LastFixed before b' d ∧ (d = .function ∨ d = .functionParameter)

/-- At the start of the entry block of a function: just after its label. -/
def AtEntryStart (before : List Op) : Prop := ∃ b', LastFixed before b' .label ∧ InHeader b'

/-- At the start of another block. -/
def AtBlockStart (before : List Op) : Prop := ∃ b', LastFixed before b' .label ∧ ¬ InHeader b'

/-- A merge instruction is followed at once by a branch of the right kind (or is the very
last instruction of the module). -/
def MergeOk : Op → Option Op → Prop
  | .loopMerge, some n => n = .branch ∨ n = .branchConditional
  | .selectionMerge, some n => n = .branchConditional ∨ n = .switch
  | _, _ => True

/-- The rules. -/
structure Valid (insts : List Op) : Prop where
  phi : ∀ before after, insts = before ++ .phi :: after → AtBlockStart before
  var : ∀ before x after, insts = before ++ x :: after → FuncVar x → AtEntryStart before
  merge : ∀ before x after, insts = before ++ x :: after → MergeOk x after.head?

end Spec

open Spec

/-! ## the status as a summary of what was read -/

def Summary (before : List Op) : Status → Prop
  | .inNewFunction => InHeader before
  | .inEntryBlock => AtEntryStart before
  | .phiValid => AtBlockStart before
  | .phiAndVarInvalid => ¬ InHeader before ∧ ¬ AtEntryStart before ∧ ¬ AtBlockStart before

theorem lastFixed_unique {before b1 b2 : List Op} {d1 d2 : Op} (h1 : LastFixed before b1 d1)
    (h2 : LastFixed before b2 d2) : b1 = b2 ∧ d1 = d2 := by
  obtain ⟨f1, e1, n1, a1⟩ := h1
  obtain ⟨f2, e2, n2, a2⟩ := h2
  rw [e1] at e2
  rcases List.append_eq_append_iff.mp e2 with ⟨l, h, h'⟩ | ⟨l, h, h'⟩
  · cases l with
    | nil => simp at h h'; exact ⟨h.symm, h'.1⟩
    | cons x l =>
      rw [List.cons_append, List.cons.injEq] at h'
      exact absurd (a1 d2 (by rw [h'.2]; simp)) n2
  · cases l with
    | nil => simp at h h'; exact ⟨h, h'.1.symm⟩
    | cons x l =>
      rw [List.cons_append, List.cons.injEq] at h'
      exact absurd (a2 d1 (by rw [h'.2]; simp)) n1

theorem lastFixed_floating {before b' : List Op} {d x : Op} (hx : Floating x) :
    LastFixed (before ++ [x]) b' d ↔ LastFixed before b' d := by
  constructor
  · rintro ⟨fl, e, n, a⟩
    rcases List.eq_nil_or_concat fl with rfl | ⟨fl', y, rfl⟩
    · have := List.append_inj' (s₁ := before) (t₁ := [x]) (s₂ := b') (t₂ := [d]) e rfl
      simp at this
      exact absurd (this.2 ▸ hx) n
    · rw [List.concat_eq_append] at a e
      rw [← List.cons_append, ← List.append_assoc] at e
      have := List.append_inj' e rfl
      exact ⟨fl', this.1, n, fun z hz => a z (by simp [hz])⟩
  · rintro ⟨fl, e, n, a⟩
    refine ⟨fl ++ [x], by rw [e]; simp, n, ?_⟩
    intro z hz
    rcases List.mem_append.mp hz with hz | hz
    · exact a z hz
    · simp only [List.mem_singleton] at hz; subst hz; exact hx

theorem lastFixed_fixed {before : List Op} {x : Op} (hx : ¬ Floating x) :
    LastFixed (before ++ [x]) before x := ⟨[], rfl, hx, by simp⟩

theorem summary_floating {before : List Op} {x : Op} (hx : Floating x) {st : Status}
    (h : Summary before st) : Summary (before ++ [x]) st := by
  cases st <;>
    simpa only [Summary, InHeader, AtEntryStart, AtBlockStart, lastFixed_floating hx] using h

theorem summary_header {before : List Op} {x : Op} (hx : x = .function ∨ x = .functionParameter) :
    Summary (before ++ [x]) .inNewFunction := by
  refine ⟨before, x, lastFixed_fixed ?_, hx⟩
  rcases hx with rfl | rfl <;> exact id

theorem summary_label {before : List Op} {st : Status} (h : Summary before st) :
    Summary (before ++ [.label]) (if st = .inNewFunction then .inEntryBlock else .phiValid) := by
  have hl : LastFixed (before ++ [.label]) before .label := lastFixed_fixed id
  cases st with
  | inNewFunction => exact ⟨before, hl, h⟩
  | inEntryBlock =>
    refine ⟨before, hl, ?_⟩
    obtain ⟨b', h1, _⟩ := h
    rintro ⟨b2, d, h2, h3⟩
    obtain ⟨_, rfl⟩ := lastFixed_unique h1 h2
    rcases h3 with h | h <;> cases h
  | phiValid =>
    refine ⟨before, hl, ?_⟩
    obtain ⟨b', h1, _⟩ := h
    rintro ⟨b2, d, h2, h3⟩
    obtain ⟨_, rfl⟩ := lastFixed_unique h1 h2
    rcases h3 with h | h <;> cases h
  | phiAndVarInvalid => exact ⟨before, hl, h.1⟩

theorem summary_other {before : List Op} {x : Op} (hx : ¬ Floating x) (h1 : x ≠ .function)
    (h2 : x ≠ .functionParameter) (h3 : x ≠ .label) :
    Summary (before ++ [x]) .phiAndVarInvalid := by
  have hl := lastFixed_fixed (before := before) hx
  refine ⟨?_, ?_, ?_⟩
  · rintro ⟨b, d, h, hd⟩
    obtain ⟨_, rfl⟩ := lastFixed_unique hl h
    rcases hd with h | h
    · exact h1 h
    · exact h2 h
  · rintro ⟨b, h, _⟩
    obtain ⟨_, rfl⟩ := lastFixed_unique hl h
    exact h3 rfl
  · rintro ⟨b, h, _⟩
    obtain ⟨_, rfl⟩ := lastFixed_unique hl h
    exact h3 rfl

theorem summary_unique {before : List Op} {s1 s2 : Status} (h1 : Summary before s1)
    (h2 : Summary before s2) : s1 = s2 := by
  have lh : AtEntryStart before → InHeader before → False := by
    rintro ⟨b, h, _⟩ ⟨b', d, h', hd⟩
    obtain ⟨_, rfl⟩ := lastFixed_unique h h'
    rcases hd with h | h <;> cases h
  have bh : AtBlockStart before → InHeader before → False := by
    rintro ⟨b, h, _⟩ ⟨b', d, h', hd⟩
    obtain ⟨_, rfl⟩ := lastFixed_unique h h'
    rcases hd with h | h <;> cases h
  have be : AtBlockStart before → AtEntryStart before → False := by
    rintro ⟨b, h, hn⟩ ⟨b', h', hh⟩
    obtain ⟨rfl, _⟩ := lastFixed_unique h h'
    exact hn hh
  cases s1 <;> cases s2 <;> simp only [Summary] at h1 h2 <;>
    first
      | rfl
      | exact (lh h1 h2).elim
      | exact (lh h2 h1).elim
      | exact (bh h1 h2).elim
      | exact (bh h2 h1).elim
      | exact (be h1 h2).elim
      | exact (be h2 h1).elim
      | exact absurd h1 h2.1
      | exact absurd h1 h2.2.1
      | exact absurd h1 h2.2.2
      | exact absurd h2 h1.1
      | exact absurd h2 h1.2.1
      | exact absurd h2 h1.2.2

/-- Whether the rules hold at one position. -/
def Here (before : List Op) (x : Op) (next : Option Op) : Prop :=
  (x = .phi → AtBlockStart before) ∧ (FuncVar x → AtEntryStart before) ∧ MergeOk x next

theorem step_spec {before : List Op} {st : Status} (h : Summary before st) (x : Op)
    (next : Option Op) :
    (Here before x next → ∃ st', step st x next = some st' ∧ Summary (before ++ [x]) st') ∧
    (¬ Here before x next → step st x next = none) := by
  cases x with
  | function =>
    refine ⟨fun _ => ⟨_, rfl, summary_header (Or.inl rfl)⟩, fun hn => absurd ?_ hn⟩
    exact ⟨fun h => (by cases h), fun h => h.elim, trivial⟩
  | functionParameter =>
    refine ⟨fun _ => ⟨_, rfl, summary_header (Or.inr rfl)⟩, fun hn => absurd ?_ hn⟩
    exact ⟨fun h => (by cases h), fun h => h.elim, trivial⟩
  | label =>
    refine ⟨fun _ => ⟨_, rfl, summary_label h⟩, fun hn => absurd ?_ hn⟩
    exact ⟨fun h => (by cases h), fun h => h.elim, trivial⟩
  | extInst a b =>
    constructor
    · intro _
      simp only [step]
      by_cases hf : (!a || b) = true
      · rw [if_pos hf]
        refine ⟨_, rfl, summary_other ?_ (by simp) (by simp) (by simp)⟩
        simp only [Floating]
        rintro ⟨rfl, rfl⟩
        simp at hf
      · rw [if_neg hf]
        refine ⟨_, rfl, summary_floating ?_ h⟩
        simp only [Floating]
        cases a <;> cases b <;> simp at hf ⊢
    · intro hn
      exact absurd ⟨fun h => (by cases h), fun h => h.elim, trivial⟩ hn
  | phi =>
    simp only [step]
    by_cases hs : st = .phiValid
    · subst hs
      simp only [ne_eq, not_true_eq_false, if_false]
      refine ⟨fun _ => ⟨_, rfl, summary_floating (by simp [Floating]) h⟩, fun hn => absurd ?_ hn⟩
      exact ⟨fun _ => h, fun h => h.elim, trivial⟩
    · rw [if_pos hs]
      refine ⟨fun hh => ?_, fun _ => rfl⟩
      exact absurd (summary_unique h (s2 := .phiValid) (hh.1 rfl)) hs
  | line =>
    refine ⟨fun _ => ⟨_, rfl, summary_floating (by simp [Floating]) h⟩, fun hn => absurd ?_ hn⟩
    exact ⟨fun h => (by cases h), fun h => h.elim, trivial⟩
  | noLine =>
    refine ⟨fun _ => ⟨_, rfl, summary_floating (by simp [Floating]) h⟩, fun hn => absurd ?_ hn⟩
    exact ⟨fun h => (by cases h), fun h => h.elim, trivial⟩
  | loopMerge =>
    have hso : Summary (before ++ [.loopMerge]) .phiAndVarInvalid :=
      summary_other id (by simp) (by simp) (by simp)
    cases next with
    | none =>
      refine ⟨fun _ => ⟨_, rfl, hso⟩, fun hn => absurd ?_ hn⟩
      exact ⟨fun h => (by cases h), fun h => h.elim, trivial⟩
    | some n =>
      cases n <;> first
        | (refine ⟨fun _ => ⟨_, rfl, hso⟩, fun hn => absurd ?_ hn⟩
           exact ⟨fun h => (by cases h), fun h => h.elim, by simp [MergeOk]⟩)
        | (refine ⟨fun hh => ?_, fun _ => rfl⟩
           have := hh.2.2
           simp [MergeOk] at this)
  | selectionMerge =>
    have hso : Summary (before ++ [.selectionMerge]) .phiAndVarInvalid :=
      summary_other id (by simp) (by simp) (by simp)
    cases next with
    | none =>
      refine ⟨fun _ => ⟨_, rfl, hso⟩, fun hn => absurd ?_ hn⟩
      exact ⟨fun h => (by cases h), fun h => h.elim, trivial⟩
    | some n =>
      cases n <;> first
        | (refine ⟨fun _ => ⟨_, rfl, hso⟩, fun hn => absurd ?_ hn⟩
           exact ⟨fun h => (by cases h), fun h => h.elim, by simp [MergeOk]⟩)
        | (refine ⟨fun hh => ?_, fun _ => rfl⟩
           have := hh.2.2
           simp [MergeOk] at this)
  | var b =>
    simp only [step]
    by_cases hs : b = true ∧ st ≠ .inEntryBlock
    · rw [if_pos hs]
      refine ⟨fun hh => ?_, fun _ => rfl⟩
      exact absurd (summary_unique h (s2 := .inEntryBlock) (hh.2.1 hs.1)) hs.2
    · rw [if_neg hs]
      refine ⟨fun _ => ⟨_, rfl, summary_floating (by simp [Floating]) h⟩, fun hn => absurd ?_ hn⟩
      refine ⟨fun h => (by cases h), fun hv => ?_, trivial⟩
      have : st = .inEntryBlock := Decidable.of_not_not fun e => hs ⟨hv, e⟩
      subst this
      exact h
  | untypedVar b =>
    simp only [step]
    by_cases hs : b = true ∧ st ≠ .inEntryBlock
    · rw [if_pos hs]
      refine ⟨fun hh => ?_, fun _ => rfl⟩
      exact absurd (summary_unique h (s2 := .inEntryBlock) (hh.2.1 hs.1)) hs.2
    · rw [if_neg hs]
      refine ⟨fun _ => ⟨_, rfl, summary_floating (by simp [Floating]) h⟩, fun hn => absurd ?_ hn⟩
      refine ⟨fun h => (by cases h), fun hv => ?_, trivial⟩
      have : st = .inEntryBlock := Decidable.of_not_not fun e => hs ⟨hv, e⟩
      subst this
      exact h
  | branch =>
    refine ⟨fun _ => ⟨_, rfl, summary_other id (by simp) (by simp) (by simp)⟩, fun hn => absurd ?_ hn⟩
    exact ⟨fun h => (by cases h), fun h => h.elim, trivial⟩
  | branchConditional =>
    refine ⟨fun _ => ⟨_, rfl, summary_other id (by simp) (by simp) (by simp)⟩, fun hn => absurd ?_ hn⟩
    exact ⟨fun h => (by cases h), fun h => h.elim, trivial⟩
  | switch =>
    refine ⟨fun _ => ⟨_, rfl, summary_other id (by simp) (by simp) (by simp)⟩, fun hn => absurd ?_ hn⟩
    exact ⟨fun h => (by cases h), fun h => h.elim, trivial⟩
  | other =>
    refine ⟨fun _ => ⟨_, rfl, summary_other id (by simp) (by simp) (by simp)⟩, fun hn => absurd ?_ hn⟩
    exact ⟨fun h => (by cases h), fun h => h.elim, trivial⟩

theorem loop_spec (rest before : List Op) {st : Status} (h : Summary before st) :
    loop st rest = true ↔
      ∀ b x a, rest = b ++ x :: a → Here (before ++ b) x a.head? := by
  induction rest generalizing before st with
  | nil =>
    simp only [loop, true_iff]
    intro b x a e
    cases b <;> cases e
  | cons i rest ih =>
    obtain ⟨h1, h2⟩ := step_spec h i rest.head?
    by_cases hh : Here before i rest.head?
    · obtain ⟨st', h3, h4⟩ := h1 hh
      unfold loop
      rw [h3]
      dsimp only
      rw [ih _ h4]
      constructor
      · intro hr b x a e
        cases b with
        | nil => simp at e; obtain ⟨rfl, rfl⟩ := e; simpa using hh
        | cons y b =>
          simp at e
          obtain ⟨rfl, rfl⟩ := e
          have := hr b x a rfl
          simpa using this
      · intro hr b x a e
        have := hr (i :: b) x a (by rw [e]; rfl)
        simpa using this
    · unfold loop
      rw [h2 hh]
      simp only [Bool.false_eq_true, false_iff]
      intro hr
      exact hh (by simpa using hr [] i rest rfl)

/-- **C42.** The adjacency check accepts a sequence of instructions exactly when it obeys
the rules. -/
theorem adjacency_exact (insts : List Op) : validate insts = true ↔ Spec.Valid insts := by
  unfold validate
  have h0 : Summary [] .phiAndVarInvalid := by
    refine ⟨?_, ?_, ?_⟩
    · rintro ⟨b, d, ⟨fl, e, _⟩, _⟩; simp at e
    · rintro ⟨b, ⟨fl, e, _⟩, _⟩; simp at e
    · rintro ⟨b, ⟨fl, e, _⟩, _⟩; simp at e
  rw [loop_spec insts [] h0]
  constructor
  · intro h
    exact ⟨fun b a e => (h b _ a e).1 rfl, fun b x a e => (h b x a e).2.1,
      fun b x a e => (h b x a e).2.2⟩
  · intro h b x a e
    refine ⟨fun hx => ?_, h.var b x a e, h.merge b x a e⟩
    subst hx
    exact h.phi b a e

/-! ## functions in the usual layout -/

namespace Spec

/-- A function as the layout rules require it: parameters, then blocks; `lines` are the
line instructions between the declarations and the first label. -/
structure Fn where
  params : Nat
  lines : List Op
  entry : List Op
  blocks : List (List Op)
  /-- OpFunctionEnd and what follows it up to the next function -/
  tail : List Op

def Fn.insts (f : Fn) : List Op :=
  .function :: (List.replicate f.params .functionParameter ++ f.lines ++ .label :: f.entry ++
    f.blocks.flatMap (fun b => .label :: b) ++ .other :: f.tail)

/-- Instructions that do not belong to the declarations of a function. -/
def Plain (x : Op) : Prop := x ≠ .function ∧ x ≠ .functionParameter ∧ x ≠ .label

/-- Everything satisfying `p` comes before everything that is not floating. -/
def First (p : Op → Prop) (l : List Op) : Prop :=
  ∀ b x a, l = b ++ x :: a → p x → ∀ y ∈ b, Floating y

/-- Blocks are not made of declarations, `tail` and `lines` contain no phis or variables. -/
structure Fn.LaidOut (f : Fn) : Prop where
  lines : ∀ x ∈ f.lines, x = .line ∨ x = .noLine
  entry : ∀ x ∈ f.entry, Plain x
  blocks : ∀ b ∈ f.blocks, ∀ x ∈ b, Plain x
  tail : ∀ x ∈ f.tail, Plain x ∧ x ≠ .phi ∧ ¬ FuncVar x

/-- The rules in terms of blocks. -/
structure Fn.Good (f : Fn) : Prop where
  entryPhi : ∀ x ∈ f.entry, x ≠ .phi
  entryVar : First FuncVar f.entry
  blockPhi : ∀ b ∈ f.blocks, First (· = .phi) b
  blockVar : ∀ b ∈ f.blocks, ∀ x ∈ b, ¬ FuncVar x

end Spec

/-- The status without the check of merges. -/
def track : Status → List Op → Option Status
  | st, [] => some st
  | st, i :: rest => match step st i none with
    | none => none
    | some st' => track st' rest

theorem step_next (st : Status) (x : Op) (next : Option Op) :
    (MergeOk x next → step st x next = step st x none) ∧
    (¬ MergeOk x next → step st x next = none) := by
  cases x with
  | loopMerge =>
    cases next with
    | none => simp [MergeOk, step]
    | some n => cases n <;> simp [MergeOk, step]
  | selectionMerge =>
    cases next with
    | none => simp [MergeOk, step]
    | some n => cases n <;> simp [MergeOk, step]
  | _ => simp [MergeOk, step]

theorem loop_track (st : Status) (l : List Op) :
    loop st l = true ↔ (track st l).isSome = true ∧
      ∀ b x a, l = b ++ x :: a → MergeOk x a.head? := by
  induction l generalizing st with
  | nil =>
    simp only [loop, track, Option.isSome_some, true_and, true_iff]
    intro b x a e; cases b <;> cases e
  | cons i rest ih =>
    obtain ⟨h1, h2⟩ := step_next st i rest.head?
    unfold loop track
    by_cases hm : MergeOk i rest.head?
    · rw [h1 hm]
      cases hst : step st i none with
      | none => simp
      | some st' =>
        dsimp only
        rw [ih st']
        apply and_congr Iff.rfl
        constructor
        · intro h b x a e
          cases b with
          | nil => cases e; exact hm
          | cons y b => cases e; exact h b x a rfl
        · intro h b x a e
          exact h (i :: b) x a (by rw [e]; rfl)
    · rw [h2 hm]
      simp only [Bool.false_eq_true, false_iff, not_and]
      intro _ h
      exact hm (h [] i rest rfl)

theorem track_append (st : Status) (a b : List Op) :
    track st (a ++ b) = (track st a).bind fun st' => track st' b := by
  induction a generalizing st with
  | nil => rfl
  | cons x a ih =>
    rw [List.cons_append, track, track]
    cases step st x none with
    | none => rfl
    | some st' => exact ih st'

theorem track_params (n : Nat) : track .inNewFunction (List.replicate n .functionParameter) =
    some .inNewFunction := by
  induction n with
  | zero => rfl
  | succ n ih => rw [List.replicate_succ]; exact ih

theorem track_lines (st : Status) (l : List Op) (h : ∀ x ∈ l, x = .line ∨ x = .noLine) :
    track st l = some st := by
  induction l with
  | nil => rfl
  | cons x l ih =>
    have := ih (fun y hy => h y (List.mem_cons_of_mem _ hy))
    rcases h x List.mem_cons_self with rfl | rfl <;> exact this

/-- Without phis and function variables nothing is rejected, and the status stays out of
the declarations. -/
theorem track_quiet {st : Status} (hst : st ≠ .inNewFunction) (l : List Op)
    (h : ∀ x ∈ l, Plain x ∧ x ≠ .phi ∧ ¬ FuncVar x) :
    ∃ st', track st l = some st' ∧ st' ≠ .inNewFunction := by
  induction l generalizing st with
  | nil => exact ⟨st, rfl, hst⟩
  | cons x l ih =>
    obtain ⟨⟨h1, h2, h3⟩, h4, h5⟩ := h x List.mem_cons_self
    have ih' := fun {st} (hs : st ≠ .inNewFunction) =>
      ih (st := st) hs (fun y hy => h y (List.mem_cons_of_mem _ hy))
    unfold track
    cases x with
    | function => exact absurd rfl h1
    | functionParameter => exact absurd rfl h2
    | label => exact absurd rfl h3
    | phi => exact absurd rfl h4
    | extInst a b =>
      simp only [step]
      split
      · rename_i h; split at h <;> cases h
      · rename_i st' h
        split at h
        · cases h; exact ih' (by simp)
        · cases h; exact ih' hst
    | var b =>
      cases b with
      | true => exact absurd rfl h5
      | false => simp only [step, Bool.false_eq_true, false_and, if_false]; exact ih' hst
    | untypedVar b =>
      cases b with
      | true => exact absurd rfl h5
      | false => simp only [step, Bool.false_eq_true, false_and, if_false]; exact ih' hst
    | line => exact ih' hst
    | noLine => exact ih' hst
    | loopMerge => exact ih' (by simp)
    | selectionMerge => exact ih' (by simp)
    | branch => exact ih' (by simp)
    | branchConditional => exact ih' (by simp)
    | switch => exact ih' (by simp)
    | other => exact ih' (by simp)

theorem first_cons {p : Op → Prop} {x : Op} {l : List Op} :
    First p (x :: l) ↔ (Floating x ∧ First p l) ∨ (¬ Floating x ∧ ∀ y ∈ l, ¬ p y) := by
  constructor
  · intro h
    by_cases hx : Floating x
    · refine Or.inl ⟨hx, fun b y a e hy z hz => ?_⟩
      exact h (x :: b) y a (by rw [e]; rfl) hy z (List.mem_cons_of_mem _ hz)
    · refine Or.inr ⟨hx, fun y hy hp => ?_⟩
      obtain ⟨b, a, e⟩ := List.append_of_mem hy
      exact hx (h (x :: b) y a (by rw [e]; rfl) hp x List.mem_cons_self)
  · rintro (⟨hx, h⟩ | ⟨hx, h⟩) b y a e hy z hz
    · cases b with
      | nil => cases hz
      | cons w b =>
        cases e
        rcases List.mem_cons.mp hz with rfl | hz
        · exact hx
        · exact h b y a rfl hy z hz
    · cases b with
      | nil => cases hz
      | cons w b =>
        cases e
        exact absurd hy (h y (by simp))

/-- After the first non-floating instruction of a block. -/
theorem track_invalid (l : List Op) (hp : ∀ x ∈ l, Plain x) :
    (∃ st', track .phiAndVarInvalid l = some st' ∧ st' ≠ .inNewFunction ∧
        ∀ x ∈ l, x ≠ .phi ∧ ¬ FuncVar x) ∨
      (track .phiAndVarInvalid l = none ∧ ∃ x ∈ l, x = .phi ∨ FuncVar x) := by
  induction l with
  | nil => exact Or.inl ⟨_, rfl, by simp, by simp⟩
  | cons x l ih =>
    obtain ⟨h1, h2, h3⟩ := hp x List.mem_cons_self
    have ih' := ih (fun y hy => hp y (List.mem_cons_of_mem _ hy))
    by_cases hx : x = .phi ∨ FuncVar x
    · refine Or.inr ⟨?_, x, List.mem_cons_self, hx⟩
      rcases hx with rfl | hx
      · rfl
      · cases x <;> simp [FuncVar] at hx <;> subst hx <;> rfl
    · rw [not_or] at hx
      have hs : track .phiAndVarInvalid (x :: l) = track .phiAndVarInvalid l := by
        rw [track]
        cases x with
        | function => exact absurd rfl h1
        | functionParameter => exact absurd rfl h2
        | label => exact absurd rfl h3
        | phi => exact absurd rfl hx.1
        | extInst a b => cases a <;> cases b <;> rfl
        | var b => cases b with
          | true => exact absurd rfl hx.2
          | false => rfl
        | untypedVar b => cases b with
          | true => exact absurd rfl hx.2
          | false => rfl
        | _ => rfl
      rw [hs]
      rcases ih' with ⟨st', h4, h5, h6⟩ | ⟨h4, y, h5, h6⟩
      · refine Or.inl ⟨st', h4, h5, fun y hy => ?_⟩
        rcases List.mem_cons.mp hy with rfl | hy
        · exact hx
        · exact h6 y hy
      · exact Or.inr ⟨h4, y, List.mem_cons_of_mem _ h5, h6⟩

theorem track_entry (l : List Op) (hp : ∀ x ∈ l, Plain x) :
    (((∀ x ∈ l, x ≠ .phi) ∧ First FuncVar l) →
      ∃ st', track .inEntryBlock l = some st' ∧ st' ≠ .inNewFunction) ∧
    ((track .inEntryBlock l).isSome = true → (∀ x ∈ l, x ≠ .phi) ∧ First FuncVar l) := by
  induction l with
  | nil =>
    refine ⟨fun _ => ⟨_, rfl, by simp⟩, fun _ => ⟨by simp, ?_⟩⟩
    intro b x a e; cases b <;> cases e
  | cons x l ih =>
    have hpl := fun y hy => hp y (List.mem_cons_of_mem x hy)
    obtain ⟨i1, i2⟩ := ih hpl
    obtain ⟨h1, h2, h3⟩ := hp x List.mem_cons_self
    by_cases hphi : x = .phi
    · subst hphi
      refine ⟨fun h => absurd rfl (h.1 _ List.mem_cons_self), fun h => ?_⟩
      simp [track, step] at h
    · by_cases hf : Floating x
      · have hs : track .inEntryBlock (x :: l) = track .inEntryBlock l := by
          rw [track]
          cases x with
          | extInst a b => obtain ⟨rfl, rfl⟩ := hf; rfl
          | phi => exact absurd rfl hphi
          | var b => cases b <;> rfl
          | untypedVar b => cases b <;> rfl
          | line => rfl
          | noLine => rfl
          | _ => exact absurd hf id
        rw [hs, first_cons]
        constructor
        · rintro ⟨h4, h5⟩
          refine i1 ⟨fun y hy => h4 y (List.mem_cons_of_mem _ hy), ?_⟩
          rcases h5 with h5 | h5
          · exact h5.2
          · exact absurd hf h5.1
        · intro h
          obtain ⟨h4, h5⟩ := i2 h
          refine ⟨fun y hy => ?_, Or.inl ⟨hf, h5⟩⟩
          rcases List.mem_cons.mp hy with rfl | hy
          · exact hphi
          · exact h4 y hy
      · have hs : track .inEntryBlock (x :: l) = track .phiAndVarInvalid l := by
          rw [track]
          cases x with
          | function => exact absurd rfl h1
          | functionParameter => exact absurd rfl h2
          | label => exact absurd rfl h3
          | extInst a b =>
            cases a with
            | false => cases b <;> rfl
            | true =>
              cases b with
              | true => rfl
              | false => exact absurd ⟨rfl, rfl⟩ hf
          | phi => exact absurd rfl hphi
          | var b => exact absurd trivial hf
          | untypedVar b => exact absurd trivial hf
          | line => exact absurd trivial hf
          | noLine => exact absurd trivial hf
          | _ => rfl
        rw [hs, first_cons]
        rcases track_invalid l hpl with ⟨st', h4, h5, h6⟩ | ⟨h4, y, h5, h6⟩
        · refine ⟨fun _ => ⟨st', h4, h5⟩, fun _ => ⟨?_, Or.inr ⟨hf, fun y hy => (h6 y hy).2⟩⟩⟩
          intro y hy
          rcases List.mem_cons.mp hy with rfl | hy
          · exact hphi
          · exact (h6 y hy).1
        · constructor
          · rintro ⟨h7, h8⟩
            rcases h6 with rfl | h6
            · exact absurd rfl (h7 _ (List.mem_cons_of_mem _ h5))
            · rcases h8 with h8 | h8
              · exact absurd h8.1 hf
              · exact absurd h6 (h8.2 y h5)
          · intro h; rw [h4] at h; cases h

theorem track_block (l : List Op) (hp : ∀ x ∈ l, Plain x) :
    ((First (· = .phi) l ∧ ∀ x ∈ l, ¬ FuncVar x) →
      ∃ st', track .phiValid l = some st' ∧ st' ≠ .inNewFunction) ∧
    ((track .phiValid l).isSome = true → First (· = .phi) l ∧ ∀ x ∈ l, ¬ FuncVar x) := by
  induction l with
  | nil =>
    refine ⟨fun _ => ⟨_, rfl, by simp⟩, fun _ => ⟨?_, by simp⟩⟩
    intro b x a e; cases b <;> cases e
  | cons x l ih =>
    have hpl := fun y hy => hp y (List.mem_cons_of_mem x hy)
    obtain ⟨i1, i2⟩ := ih hpl
    obtain ⟨h1, h2, h3⟩ := hp x List.mem_cons_self
    by_cases hv : FuncVar x
    · refine ⟨fun h => absurd hv (h.2 _ List.mem_cons_self), fun h => ?_⟩
      exfalso
      cases x <;> simp [FuncVar] at hv <;> subst hv <;> simp [track, step] at h
    · by_cases hf : Floating x
      · have hs : track .phiValid (x :: l) = track .phiValid l := by
          rw [track]
          cases x with
          | extInst a b => obtain ⟨rfl, rfl⟩ := hf; rfl
          | phi => rfl
          | var b => cases b with
            | true => exact absurd rfl hv
            | false => rfl
          | untypedVar b => cases b with
            | true => exact absurd rfl hv
            | false => rfl
          | line => rfl
          | noLine => rfl
          | _ => exact absurd hf id
        rw [hs, first_cons]
        constructor
        · rintro ⟨h5, h4⟩
          refine i1 ⟨?_, fun y hy => h4 y (List.mem_cons_of_mem _ hy)⟩
          rcases h5 with h5 | h5
          · exact h5.2
          · exact absurd hf h5.1
        · intro h
          obtain ⟨h5, h4⟩ := i2 h
          refine ⟨Or.inl ⟨hf, h5⟩, fun y hy => ?_⟩
          rcases List.mem_cons.mp hy with rfl | hy
          · exact hv
          · exact h4 y hy
      · have hs : track .phiValid (x :: l) = track .phiAndVarInvalid l := by
          rw [track]
          cases x with
          | function => exact absurd rfl h1
          | functionParameter => exact absurd rfl h2
          | label => exact absurd rfl h3
          | extInst a b =>
            cases a with
            | false => cases b <;> rfl
            | true =>
              cases b with
              | true => rfl
              | false => exact absurd ⟨rfl, rfl⟩ hf
          | phi => exact absurd trivial hf
          | var b => exact absurd trivial hf
          | untypedVar b => exact absurd trivial hf
          | line => exact absurd trivial hf
          | noLine => exact absurd trivial hf
          | _ => rfl
        rw [hs, first_cons]
        rcases track_invalid l hpl with ⟨st', h4, h5, h6⟩ | ⟨h4, y, h5, h6⟩
        · refine ⟨fun _ => ⟨st', h4, h5⟩, fun _ => ⟨Or.inr ⟨hf, fun y hy => (h6 y hy).1⟩, ?_⟩⟩
          intro y hy
          rcases List.mem_cons.mp hy with rfl | hy
          · exact hv
          · exact (h6 y hy).2
        · constructor
          · rintro ⟨h8, h7⟩
            rcases h6 with rfl | h6
            · rcases h8 with h8 | h8
              · exact absurd h8.1 hf
              · exact absurd rfl (h8.2 _ h5)
            · exact absurd h6 (h7 _ (List.mem_cons_of_mem _ h5))
          · intro h; rw [h4] at h; cases h

theorem track_blocks {st : Status} (hst : st ≠ .inNewFunction) (bs : List (List Op))
    (hp : ∀ b ∈ bs, ∀ x ∈ b, Plain x) :
    ((∀ b ∈ bs, First (· = .phi) b ∧ ∀ x ∈ b, ¬ FuncVar x) →
      ∃ st', track st (bs.flatMap fun b => .label :: b) = some st' ∧ st' ≠ .inNewFunction) ∧
    ((track st (bs.flatMap fun b => .label :: b)).isSome = true →
      ∀ b ∈ bs, First (· = .phi) b ∧ ∀ x ∈ b, ¬ FuncVar x) := by
  induction bs generalizing st with
  | nil => exact ⟨fun _ => ⟨st, rfl, hst⟩, by simp⟩
  | cons b bs ih =>
    obtain ⟨t1, t2⟩ := track_block b (hp b List.mem_cons_self)
    have hpb := fun c hc => hp c (List.mem_cons_of_mem b hc)
    have hl : track st (.label :: (b ++ bs.flatMap fun b => .label :: b)) =
        (track .phiValid b).bind fun st' => track st' (bs.flatMap fun b => .label :: b) := by
      rw [track]
      simp only [step, if_neg hst]
      exact track_append _ _ _
    rw [List.flatMap_cons, List.cons_append, hl]
    constructor
    · intro h
      obtain ⟨st', h1, h2⟩ := t1 (h b List.mem_cons_self)
      rw [h1]
      exact (ih h2 hpb).1 (fun c hc => h c (List.mem_cons_of_mem _ hc))
    · intro h
      cases hb : track .phiValid b with
      | none => rw [hb] at h; cases h
      | some st' =>
        have g := t2 (by rw [hb]; rfl)
        obtain ⟨st2, h1, h2⟩ := t1 g
        rw [hb] at h1; cases h1
        rw [hb] at h
        have := (ih h2 hpb).2 h
        intro c hc
        rcases List.mem_cons.mp hc with rfl | hc
        · exact g
        · exact this c hc

theorem track_fn (f : Fn) (hl : f.LaidOut) (st : Status) :
    (f.Good → ∃ st', track st f.insts = some st' ∧ st' ≠ .inNewFunction) ∧
    ((track st f.insts).isSome = true → f.Good) ∧
    (∀ st', track st f.insts = some st' → st' ≠ .inNewFunction) := by
  obtain ⟨e1, e2⟩ := track_entry f.entry hl.entry
  have h0 : track st f.insts = (track .inEntryBlock f.entry).bind fun s1 =>
      (track s1 (f.blocks.flatMap fun b => .label :: b)).bind fun s2 =>
        track s2 (.other :: f.tail) := by
    unfold Fn.insts
    rw [track]
    dsimp only [step]
    rw [List.append_assoc, List.append_assoc, List.append_assoc, track_append, track_params]
    dsimp only [Option.bind_some]
    rw [track_append, track_lines _ _ hl.lines]
    dsimp only [Option.bind_some]
    rw [List.cons_append, track]
    simp only [step, if_true]
    rw [track_append]
    congr 1
    funext s1
    rw [track_append]
  have htail : ∀ s, ∃ st', track s (.other :: f.tail) = some st' ∧ st' ≠ .inNewFunction := by
    intro s
    rw [track]
    exact track_quiet (by simp) f.tail hl.tail
  rw [h0]
  refine ⟨?_, ?_, ?_⟩
  · intro hg
    obtain ⟨s1, h1, h2⟩ := e1 ⟨hg.entryPhi, hg.entryVar⟩
    obtain ⟨s2, h3, h4⟩ := (track_blocks h2 f.blocks hl.blocks).1
      (fun b hb => ⟨hg.blockPhi b hb, hg.blockVar b hb⟩)
    obtain ⟨s3, h5, h6⟩ := htail s2
    exact ⟨s3, by rw [h1]; dsimp only [Option.bind_some]; rw [h3]; exact h5, h6⟩
  · intro h
    cases hs1 : track .inEntryBlock f.entry with
    | none => rw [hs1] at h; cases h
    | some s1 =>
      have g := e2 (by rw [hs1]; rfl)
      obtain ⟨s1', h1, h2⟩ := e1 g
      rw [hs1] at h1; cases h1
      rw [hs1] at h
      dsimp only [Option.bind_some] at h
      cases hs2 : track s1 (f.blocks.flatMap fun b => .label :: b) with
      | none => rw [hs2] at h; cases h
      | some s2 =>
        have g2 := (track_blocks h2 f.blocks hl.blocks).2 (by rw [hs2]; rfl)
        exact ⟨g.1, g.2, fun b hb => (g2 b hb).1, fun b hb => (g2 b hb).2⟩
  · intro st' h
    cases hs1 : track .inEntryBlock f.entry with
    | none => rw [hs1] at h; cases h
    | some s1 =>
      rw [hs1] at h
      dsimp only [Option.bind_some] at h
      cases hs2 : track s1 (f.blocks.flatMap fun b => .label :: b) with
      | none => rw [hs2] at h; cases h
      | some s2 =>
        rw [hs2] at h
        obtain ⟨s3, h5, h6⟩ := htail s2
        dsimp only [Option.bind_some] at h
        rw [h5] at h; cases h; exact h6

/-- **C42, laid-out modules.** For a module consisting of declarations and functions made of
blocks, the check accepts exactly when in each function the entry block has no phis and
starts with the function's variables, phis come first in the other blocks, which declare no
function variables, and each merge instruction immediately precedes its branch. -/
theorem adjacency_blocks (pre : List Op) (fs : List Fn)
    (hpre : ∀ x ∈ pre, Plain x ∧ x ≠ .phi ∧ ¬ FuncVar x) (hl : ∀ f ∈ fs, f.LaidOut) :
    validate (pre ++ fs.flatMap Fn.insts) = true ↔
      (∀ f ∈ fs, f.Good) ∧
      ∀ b x a, pre ++ fs.flatMap Fn.insts = b ++ x :: a → MergeOk x a.head? := by
  unfold validate
  rw [loop_track]
  apply and_congr ?_ Iff.rfl
  obtain ⟨st, h1, -⟩ := track_quiet (st := .phiAndVarInvalid) (by simp) pre hpre
  rw [track_append, h1]
  dsimp only [Option.bind_some]
  clear h1
  induction fs generalizing st with
  | nil => simp [track]
  | cons f fs ih =>
    obtain ⟨f1, f2, _⟩ := track_fn f (hl f List.mem_cons_self) st
    have ih' := fun st => ih (fun g hg => hl g (List.mem_cons_of_mem _ hg)) st
    rw [List.flatMap_cons, track_append]
    constructor
    · intro h
      cases hs : track st f.insts with
      | none => rw [hs] at h; cases h
      | some s1 =>
        have g := f2 (by rw [hs]; rfl)
        rw [hs] at h
        have := (ih' s1).mp h
        intro x hx
        rcases List.mem_cons.mp hx with rfl | hx
        · exact g
        · exact this x hx
    · intro h
      obtain ⟨s1, h2, _⟩ := f1 (h f List.mem_cons_self)
      rw [h2]
      exact (ih' s1).mpr (fun g hg => h g (List.mem_cons_of_mem _ hg))

/-! ## a concrete module -/

/-- A function with a variable, a debug instruction and a loop. -/
def exFn : Fn :=
  { params := 2, lines := [.line]
    entry := [.line, .var true, .extInst true false, .untypedVar true, .other, .branch]
    blocks := [[.phi, .line, .phi, .other, .loopMerge, .branchConditional],
      [.noLine, .selectionMerge, .switch], [.other]]
    tail := [.other] }

example : exFn.LaidOut := by
  refine ⟨by simp [exFn], by simp [exFn, Plain], by simp [exFn, Plain], by simp [exFn, Plain, FuncVar]⟩

example : validate ([.var false, .other] ++ [exFn, exFn].flatMap Fn.insts) = true := by decide

/-- A line instruction between a merge and its branch is rejected. -/
example : validate [.function, .label, .selectionMerge, .line, .switch] = false := by decide

/-- The very last instruction of a module may be a merge instruction as far as this check
is concerned. -/
example : validate [.function, .label, .loopMerge] = true := by decide

end Verif.Adjacency
