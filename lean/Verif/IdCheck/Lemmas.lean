import Verif.IdCheck.Spec

set_option linter.unusedSimpArgs false
set_option linter.unusedVariables false

namespace Verif.IdCheck
open Spec

theorem permits_iff (i : Inst) (k : Nat) : canForward i k = true ↔ Permits i k := by
  unfold canForward
  constructor
  · intro h
    split at h
    · rename_i hc
      cases hd : i.debugInfo <;> simp only [hd, canForwardDebug, decide_eq_true_eq] at h
      · cases h
      · exact .forwardRefs h (.inr hd)
      · subst h; exact .debugFunction hc.1 (.inl hd)
      · exact .openCLComposite hc.1 hd h
      · cases h
      · subst h; exact .debugFunction hc.1 (.inr hd)
      · exact .composite hc.1 hd h
      · cases h
    · rename_i hc
      cases ho : i.op <;> simp only [ho, canForwardOp, decide_eq_true_eq] at h
      · exact .type ho
      · exact .any ho
      · exact .notFirst ho h
      · subst h; exact .call ho
      · subst h; exact .functionPointer ho
      · exact .phi ho h
      · subst h; exact .enqueue ho
      · subst h; exact .ndrange ho
      · subst h; exact .workGroup ho
      · subst h; exact .forwardPointer ho
      · subst h; exact .perElement ho
      · subst h; exact .reduce ho
      · exact .loadTensor ho h
      · subst h; exact .graph ho
      · cases h
      · refine .forwardRefs ho (.inl ?_)
        by_cases hd : i.debugInfo = .none
        · exact hd
        · exact absurd ⟨.inr ho, hd⟩ hc
      · cases h
  · intro h
    cases h with
    | type h => rw [if_neg (by rw [h]; simp), h]; rfl
    | any h => rw [if_neg (by rw [h]; simp), h]; rfl
    | notFirst h hk => rw [if_neg (by rw [h]; simp), h]; simpa [canForwardOp] using hk
    | call h => rw [if_neg (by rw [h]; simp), h]; rfl
    | functionPointer h => rw [if_neg (by rw [h]; simp), h]; rfl
    | phi h hk => rw [if_neg (by rw [h]; simp), h]; simp [canForwardOp]; omega
    | enqueue h => rw [if_neg (by rw [h]; simp), h]; rfl
    | ndrange h => rw [if_neg (by rw [h]; simp), h]; rfl
    | workGroup h => rw [if_neg (by rw [h]; simp), h]; rfl
    | forwardPointer h => rw [if_neg (by rw [h]; simp), h]; rfl
    | perElement h => rw [if_neg (by rw [h]; simp), h]; rfl
    | reduce h => rw [if_neg (by rw [h]; simp), h]; rfl
    | loadTensor h hk => rw [if_neg (by rw [h]; simp), h]; simp [canForwardOp]; omega
    | graph h => rw [if_neg (by rw [h]; simp), h]; rfl
    | forwardRefs h hd =>
      rcases hd with hd | hd
      · rw [if_neg (by rw [hd]; simp), h]; rfl
      · rw [if_pos ⟨.inr h, by rw [hd]; simp⟩, h, hd]; rfl
    | debugFunction h hd =>
      rcases hd with hd | hd
      · rw [if_pos ⟨h, by rw [hd]; simp⟩, hd]; rfl
      · rw [if_pos ⟨h, by rw [hd]; simp⟩, hd]; rfl
    | openCLComposite h hd hk => rw [if_pos ⟨h, by rw [hd]; simp⟩, hd]; simpa [canForwardDebug] using hk
    | composite h hd hk => rw [if_pos ⟨h, by rw [hd]; simp⟩, hd]; simpa [canForwardDebug] using hk

theorem idRules_iff (user d : Inst) : idRules user d = true ↔ KindOk user d := by
  unfold idRules KindOk
  cases h1 : d.isType <;> cases h2 : user.canHaveType <;> cases h3 : d.nonSemantic <;>
    cases h4 : user.nonSemantic <;> cases h5 : user.requiresType <;> cases h6 : d.requiresType <;> simp

/-! ## Definitions -/

theorem firstDef_nil {w d} : ¬ FirstDef [] w d := by
  rintro ⟨p, q, h, -⟩
  cases p <;> cases h

theorem definedIn_of_firstDef {l w d} (h : FirstDef l w d) : DefinedIn l w := by
  obtain ⟨p, q, rfl, hd, -⟩ := h
  exact ⟨d, by simp, hd⟩

theorem firstDef_unique {l w d d'} (h : FirstDef l w d) (h' : FirstDef l w d') : d = d' := by
  obtain ⟨p, q, e, hd, hp⟩ := h
  obtain ⟨p', q', e', hd', hp'⟩ := h'
  rw [e] at e'
  rcases List.append_eq_append_iff.mp e' with ⟨a, h1, h2⟩ | ⟨a, h1, h2⟩
  · cases a with
    | nil => simp at h2; exact h2.1
    | cons x a =>
      simp only [List.cons_append, List.cons.injEq] at h2
      exact absurd hd (hp' d (by rw [h1, ← h2.1]; simp))
  · cases a with
    | nil => simp at h2; exact h2.1.symm
    | cons x a =>
      simp only [List.cons_append, List.cons.injEq] at h2
      exact absurd hd' (hp d' (by rw [h1, ← h2.1]; simp))

theorem exists_firstDef {l w} (h : DefinedIn l w) : ∃ d, FirstDef l w d := by
  induction l with
  | nil => obtain ⟨d, hd, -⟩ := h; cases hd
  | cons a l ih =>
    by_cases ha : Defines a w
    · exact ⟨a, [], l, rfl, ha, by simp⟩
    · have : DefinedIn l w := by
        obtain ⟨d, hd, h⟩ := h
        rcases List.mem_cons.mp hd with rfl | hd
        · exact absurd h ha
        · exact ⟨d, hd, h⟩
      obtain ⟨d, p, q, rfl, h1, h2⟩ := ih this
      refine ⟨d, a :: p, q, rfl, h1, fun x hx => ?_⟩
      rcases List.mem_cons.mp hx with rfl | hx
      · exact ha
      · exact h2 x hx

theorem firstDef_append {l r w d} (h : FirstDef l w d) : FirstDef (l ++ r) w d := by
  obtain ⟨p, q, rfl, h1, h2⟩ := h
  exact ⟨p, q ++ r, by simp, h1, h2⟩

theorem definedIn_append {l r w} : DefinedIn (l ++ r) w ↔ DefinedIn l w ∨ DefinedIn r w := by
  simp only [DefinedIn, List.mem_append]
  constructor
  · rintro ⟨d, h | h, hd⟩
    · exact .inl ⟨d, h, hd⟩
    · exact .inr ⟨d, h, hd⟩
  · rintro (⟨d, h, hd⟩ | ⟨d, h, hd⟩)
    · exact ⟨d, .inl h, hd⟩
    · exact ⟨d, .inr h, hd⟩

theorem definedIn_single {i w} : DefinedIn [i] w ↔ Defines i w := by
  simp [DefinedIn]

theorem definedIn_cons {i l w} : DefinedIn (i :: l) w ↔ Defines i w ∨ DefinedIn l w := by
  simp [DefinedIn]

/-- `w` is mentioned before its definition by `user`. -/
def ForwardIn (pre : List Inst) (user : Inst) (w : Nat) : Prop :=
  .id w ∈ user.operands ∧ ¬ DefinedIn pre w

/-- `w` has been mentioned in `l` before its definition and is not defined in `l`. -/
def Pending (l : List Inst) (w : Nat) : Prop :=
  ∃ pre user post, l = pre ++ user :: post ∧ ForwardIn pre user w ∧ ¬ DefinedIn (user :: post) w

structure Inv (pre : List Inst) (s : State) : Prop where
  defs : ∀ w d, findDef s w = some d ↔ FirstDef pre w d
  pending : ∀ w, w ∈ s.unresolved ↔ Pending pre w
  pointers : ∀ w, w ∈ s.forwardPointers ↔ Announced pre w

theorem findDef_none {pre s} (inv : Inv pre s) {w} : findDef s w = none ↔ ¬ DefinedIn pre w := by
  constructor
  · intro h hd
    obtain ⟨d, hd⟩ := exists_firstDef hd
    rw [(inv.defs w d).mpr hd] at h; cases h
  · intro h
    cases hf : findDef s w with
    | none => rfl
    | some d => exact absurd (definedIn_of_firstDef ((inv.defs w d).mp hf)) h

/-- The local part of `OperandOk`. -/
def LocalOk (pre : List Inst) (user : Inst) (k : Nat) : Operand → Prop
  | .id w =>
    (∃ d, FirstDef pre w d ∧ KindOk user d) ∨
    (¬ DefinedIn pre w ∧ Permits user k ∧ (user.isType → Announced pre w))
  | .typeId w => ∃ d, FirstDef pre w d ∧ d.isType
  | .extNumber => user.op = .extInstWithForwardRefs → user.nonSemantic
  | .resultId | .other => True

theorem operandLoop_spec {pre s} (inv : Inv pre s) (user : Inst) : ∀ (ops : List Operand) (i : Nat),
    (∀ ws, operandLoop s user i ops = some ws →
      (∀ k o, ops[k]? = some o → LocalOk pre user (i + k) o) ∧
      ∀ w, w ∈ ws ↔ .id w ∈ ops ∧ ¬ DefinedIn pre w) ∧
    (operandLoop s user i ops = none → ∃ k o, ops[k]? = some o ∧ ¬ LocalOk pre user (i + k) o)
  | [], i => by
    refine ⟨fun ws h => ?_, fun h => ?_⟩
    · cases h; simp
    · cases h
  | o :: ops, i => by
    have ih := operandLoop_spec inv user ops (i + 1)
    -- when the head passes without a forward declaration
    have pass : ∀ (hl : operandLoop s user i (o :: ops) = operandLoop s user (i + 1) ops)
        (ho : LocalOk pre user i o) (hw : ∀ w, o = .id w → DefinedIn pre w),
        (∀ ws, operandLoop s user i (o :: ops) = some ws →
          (∀ k o', (o :: ops)[k]? = some o' → LocalOk pre user (i + k) o') ∧
          ∀ w, w ∈ ws ↔ .id w ∈ o :: ops ∧ ¬ DefinedIn pre w) ∧
        (operandLoop s user i (o :: ops) = none →
          ∃ k o', (o :: ops)[k]? = some o' ∧ ¬ LocalOk pre user (i + k) o') := by
      intro hl ho hw
      rw [hl]
      refine ⟨fun ws h => ⟨?_, ?_⟩, fun h => ?_⟩
      · intro k o' hk
        cases k with
        | zero => simp at hk; subst hk; exact ho
        | succ k =>
          have := (ih.1 ws h).1 k o' (by simpa using hk)
          rwa [show i + (k + 1) = i + 1 + k by omega]
      · intro w
        rw [(ih.1 ws h).2 w, List.mem_cons]
        constructor
        · exact fun h => ⟨.inr h.1, h.2⟩
        · rintro ⟨h1 | h1, h2⟩
          · exact absurd (hw w h1.symm) h2
          · exact ⟨h1, h2⟩
      · obtain ⟨k, o', hk, hn⟩ := ih.2 h
        exact ⟨k + 1, o', by simpa using hk, by rwa [show i + (k + 1) = i + 1 + k by omega]⟩
    have fail : ∀ (hl : operandLoop s user i (o :: ops) = none) (ho : ¬ LocalOk pre user i o),
        (∀ ws, operandLoop s user i (o :: ops) = some ws →
          (∀ k o', (o :: ops)[k]? = some o' → LocalOk pre user (i + k) o') ∧
          ∀ w, w ∈ ws ↔ .id w ∈ o :: ops ∧ ¬ DefinedIn pre w) ∧
        (operandLoop s user i (o :: ops) = none →
          ∃ k o', (o :: ops)[k]? = some o' ∧ ¬ LocalOk pre user (i + k) o') := by
      intro hl ho
      rw [hl]
      exact ⟨fun ws h => (by cases h), fun _ => ⟨0, o, rfl, ho⟩⟩
    cases o with
    | resultId => exact pass rfl trivial (by intro w h; cases h)
    | other => exact pass rfl trivial (by intro w h; cases h)
    | extNumber =>
      by_cases hc : user.op = .extInstWithForwardRefs ∧ user.nonSemantic = false
      · refine fail (by simp only [operandLoop, if_pos hc]) (fun h => ?_)
        have := h hc.1; rw [hc.2] at this; cases this
      · refine pass (by simp only [operandLoop, if_neg hc]) (fun h => ?_) (by intro w h; cases h)
        cases hn : user.nonSemantic
        · exact absurd ⟨h, hn⟩ hc
        · rfl
    | typeId w =>
      cases hf : findDef s w with
      | none =>
        refine fail (by simp only [operandLoop, hf]) ?_
        rintro ⟨d, hd, -⟩
        exact (findDef_none inv).mp hf (definedIn_of_firstDef hd)
      | some d =>
        have hd := (inv.defs w d).mp hf
        cases ht : d.isType
        · refine fail (by simp [operandLoop, hf, ht]) ?_
          rintro ⟨d', hd', ht'⟩
          rw [firstDef_unique hd hd', ht'] at ht; cases ht
        · exact pass (by simp [operandLoop, hf, ht]) ⟨d, hd, ht⟩ (by intro w h; cases h)
    | id w =>
      cases hf : findDef s w with
      | some d =>
        have hd := (inv.defs w d).mp hf
        by_cases hk : idRules user d = true
        · refine pass (by simp [operandLoop, hf, hk]) (.inl ⟨d, hd, (idRules_iff user d).mp hk⟩) ?_
          intro w' h; cases h
          exact definedIn_of_firstDef hd
        · refine fail (by simp [operandLoop, hf, hk]) ?_
          rintro (⟨d', hd', hk'⟩ | ⟨hn, -⟩)
          · rw [firstDef_unique hd hd'] at hk
            exact hk ((idRules_iff user d').mpr hk')
          · exact hn (definedIn_of_firstDef hd)
      | none =>
        have hn := (findDef_none inv).mp hf
        have bad : ¬ (canForward user i = true ∧ (user.isType = true → w ∈ s.forwardPointers)) →
            ¬ LocalOk pre user i (.id w) := by
          intro h
          rintro (⟨d, hd, -⟩ | ⟨-, hp, ha⟩)
          · exact hn (definedIn_of_firstDef hd)
          · exact h ⟨(permits_iff user i).mpr hp, fun ht => (inv.pointers w).mpr (ha ht)⟩
        by_cases hc : canForward user i = true
        · by_cases hp : user.isType = true → w ∈ s.forwardPointers
          · have hcond : (user.isType && !s.forwardPointers.contains w) = false := by
              cases ht : user.isType
              · rfl
              · have := hp ht
                simp [this]
            have hloc : LocalOk pre user i (.id w) :=
              .inr ⟨hn, (permits_iff user i).mp hc, fun ht => (inv.pointers w).mp (hp ht)⟩
            cases hr : operandLoop s user (i + 1) ops with
            | none =>
              have hl : operandLoop s user i (.id w :: ops) = none := by
                simp only [operandLoop, hf, hc, hcond, hr, if_true]; rfl
              rw [hl]
              refine ⟨fun ws h => (by cases h), fun _ => ?_⟩
              obtain ⟨k, o', hk, hn⟩ := ih.2 hr
              exact ⟨k + 1, o', by simpa using hk, by rwa [show i + (k + 1) = i + 1 + k by omega]⟩
            | some ws =>
              have hl : operandLoop s user i (.id w :: ops) = some (w :: ws) := by
                simp only [operandLoop, hf, hc, hcond, hr, if_true]; rfl
              rw [hl]
              refine ⟨fun ws' h => ?_, fun h => (by cases h)⟩
              cases h
              obtain ⟨h1, h2⟩ := ih.1 ws hr
              refine ⟨?_, ?_⟩
              · intro k o' hk
                cases k with
                | zero => simp at hk; subst hk; exact hloc
                | succ k =>
                  have := h1 k o' (by simpa using hk)
                  rwa [show i + (k + 1) = i + 1 + k by omega]
              · intro w'
                rw [List.mem_cons, h2 w', List.mem_cons]
                constructor
                · rintro (rfl | h)
                  · exact ⟨.inl rfl, hn⟩
                  · exact ⟨.inr h.1, h.2⟩
                · rintro ⟨h | h, h'⟩
                  · cases h; exact .inl rfl
                  · exact .inr ⟨h, h'⟩
          · refine fail ?_ (bad fun h => hp h.2)
            have hcond : (user.isType && !s.forwardPointers.contains w) = true := by
              cases ht : user.isType
              · rw [ht] at hp; simp at hp
              · rw [ht] at hp; simpa using hp
            simp only [operandLoop, hf, hc, hcond, if_true]
        · refine fail ?_ (bad fun h => hc h.1)
          simp only [operandLoop, hf, hc, if_false]; rfl

/-- The local part of the conditions on one instruction. -/
def InstOk (pre : List Inst) (user : Inst) : Prop :=
  (∀ k o, user.operands[k]? = some o → LocalOk pre user k o) ∧
  (user.op = .extInstWithForwardRefs → ∃ w, ForwardIn pre user w)

theorem pending_snoc {pre user w} : Pending (pre ++ [user]) w ↔
    (Pending pre w ∨ ForwardIn pre user w) ∧ ¬ Defines user w := by
  constructor
  · rintro ⟨p, u, q, he, hf, hn⟩
    rcases List.eq_nil_or_concat q with rfl | ⟨q, x, rfl⟩
    · have := List.append_inj' he (by simp)
      obtain ⟨rfl, h2⟩ := this
      simp only [List.cons.injEq, and_true] at h2
      subst h2
      exact ⟨.inr hf, fun h => hn (definedIn_single.mpr h)⟩
    · rw [List.concat_eq_append] at he hn
      rw [show p ++ u :: (q ++ [x]) = (p ++ u :: q) ++ [x] by simp] at he
      obtain ⟨rfl, h2⟩ := List.append_inj' he (by simp)
      simp only [List.cons.injEq, and_true] at h2
      subst h2
      have hn' : ¬ DefinedIn (u :: q) w ∧ ¬ Defines user w := by
        rw [show u :: (q ++ [user]) = (u :: q) ++ [user] by simp, definedIn_append, definedIn_single] at hn
        exact ⟨fun h => hn (.inl h), fun h => hn (.inr h)⟩
      exact ⟨.inl ⟨p, u, q, rfl, hf, hn'.1⟩, hn'.2⟩
  · rintro ⟨⟨p, u, q, rfl, hf, hn⟩ | hf, hd⟩
    · refine ⟨p, u, q ++ [user], by simp, hf, ?_⟩
      rw [show u :: (q ++ [user]) = (u :: q) ++ [user] by simp, definedIn_append, definedIn_single]
      rintro (h | h)
      · exact hn h
      · exact hd h
    · exact ⟨pre, user, [], rfl, hf, fun h => hd (definedIn_single.mp h)⟩

theorem lookup_append {w : Nat} : ∀ (l r : List (Nat × Inst)),
    (l ++ r).lookup w = (l.lookup w).or (r.lookup w)
  | [], r => rfl
  | (a, d) :: l, r => by
    simp only [List.cons_append, List.lookup_cons]
    cases w == a
    · exact lookup_append l r
    · rfl

theorem firstDef_snoc {pre user w d} : FirstDef (pre ++ [user]) w d ↔
    FirstDef pre w d ∨ (¬ DefinedIn pre w ∧ Defines user w ∧ d = user) := by
  constructor
  · intro h
    by_cases hp : DefinedIn pre w
    · obtain ⟨d', hd'⟩ := exists_firstDef hp
      rw [firstDef_unique h (firstDef_append hd')]
      exact .inl hd'
    · have hu : Defines user w := by
        rcases definedIn_append.mp (definedIn_of_firstDef h) with h | h
        · exact absurd h hp
        · exact definedIn_single.mp h
      have : FirstDef (pre ++ [user]) w user :=
        ⟨pre, [], rfl, hu, fun x hx hd => hp ⟨x, hx, hd⟩⟩
      exact .inr ⟨hp, hu, firstDef_unique h this⟩
  · rintro (h | ⟨hp, hu, rfl⟩)
    · exact firstDef_append h
    · exact ⟨pre, [], rfl, hu, fun x hx hd => hp ⟨x, hx, hd⟩⟩

theorem announced_snoc {pre user w} : Announced (pre ++ [user]) w ↔
    Announced pre w ∨ (user.op = .typeForwardPointer ∧ user.operands.head? = some (.id w)) := by
  simp only [Announced, List.mem_append, List.mem_singleton]
  constructor
  · rintro ⟨i, h | rfl, h2⟩
    · exact .inl ⟨i, h, h2⟩
    · exact .inr h2
  · rintro (⟨i, h, h2⟩ | h2)
    · exact ⟨i, .inl h, h2⟩
    · exact ⟨user, .inr rfl, h2⟩

theorem mem_pointerOperand {user : Inst} {w} : w ∈ pointerOperand user ↔ user.operands.head? = some (.id w) := by
  unfold pointerOperand
  cases user.operands with
  | nil => simp
  | cons o ops =>
    cases o <;> simp
    exact eq_comm

theorem inv_step {pre s user s'} (inv : Inv pre s) (h : idPass s user = some s') :
    InstOk pre user ∧ Inv (pre ++ [user]) (register s' user) := by
  unfold idPass at h
  have hspec := operandLoop_spec inv user user.operands 0
  cases hl : operandLoop s user 0 user.operands with
  | none => rw [hl] at h; cases h
  | some ws =>
    rw [hl] at h
    dsimp only at h
    obtain ⟨h1, h2⟩ := hspec.1 ws hl
    by_cases hc : user.op = .extInstWithForwardRefs ∧ ws = []
    · rw [if_pos hc] at h; cases h
    rw [if_neg hc] at h
    have hs := Option.some.inj h
    refine ⟨⟨fun k o hk => by have := h1 k o hk; rwa [Nat.zero_add] at this, fun ho => ?_⟩, ?_⟩
    · cases ws with
      | nil => exact absurd ⟨ho, rfl⟩ hc
      | cons w ws => exact ⟨w, (h2 w).mp List.mem_cons_self⟩
    · have hd' : s'.defs = s.defs := by rw [← hs]
      have hp' : s'.forwardPointers = s.forwardPointers := by rw [← hs]
      have hu' : ∀ w, w ∈ s'.unresolved ↔ Pending (pre ++ [user]) w := by
        intro w
        rw [pending_snoc, ← hs]
        dsimp only
        by_cases hid : user.id ≠ 0
        · rw [if_pos hid, List.mem_filter, List.mem_append, inv.pending, h2]
          simp only [Defines, ForwardIn, decide_eq_true_eq]
          constructor
          · rintro ⟨h, hne⟩
            exact ⟨h, fun hh => hne hh.1.symm⟩
          · rintro ⟨h, hne⟩
            refine ⟨h, fun hh => hne ⟨hh.symm, ?_⟩⟩
            rw [hh]; exact hid
        · rw [if_neg hid, List.mem_append, inv.pending, h2]
          simp only [Defines, ForwardIn]
          refine ⟨fun h => ⟨h, fun hh => hid ?_⟩, fun h => h.1⟩
          rw [hh.1]; exact hh.2
      have hreg : (register s' user).unresolved = s'.unresolved := by
        unfold register; dsimp only; split <;> split <;> rfl
      have hregd : (register s' user).defs =
          if user.id ≠ 0 then s'.defs ++ [(user.id, user)] else s'.defs := by
        unfold register; dsimp only; split <;> split <;> rfl
      have hregp : (register s' user).forwardPointers =
          if user.op = .typeForwardPointer then s'.forwardPointers ++ pointerOperand user
          else s'.forwardPointers := by
        unfold register; dsimp only; split <;> split <;> rfl
      refine ⟨?_, ?_, ?_⟩
      · intro w d
        rw [firstDef_snoc, ← inv.defs]
        unfold findDef
        rw [hregd, hd']
        have hn : s.defs.lookup w = none ↔ ¬ DefinedIn pre w := findDef_none inv
        by_cases hid : user.id ≠ 0
        · rw [if_pos hid, lookup_append]
          cases hlk : s.defs.lookup w with
          | some d' =>
            have : DefinedIn pre w := by
              refine Classical.byContradiction fun hh => ?_
              rw [hn.mpr hh] at hlk; cases hlk
            simp [this]
          | none =>
            have : ¬ DefinedIn pre w := hn.mp hlk
            simp only [Option.or, List.lookup_cons, List.lookup_nil, Defines]
            by_cases hw : w = user.id
            · subst hw; simp [this, hid]; exact eq_comm
            · have hw2 : (w == user.id) = false := by simpa using hw
              rw [hw2]
              simp [this, Ne.symm hw]
        · rw [if_neg hid]
          have : ¬ Defines user w := fun hh => hid (by rw [hh.1]; exact hh.2)
          simp [this]
      · intro w; rw [hreg]; exact hu' w
      · intro w
        rw [announced_snoc, ← inv.pointers, hregp, hp']
        by_cases ho : user.op = .typeForwardPointer
        · rw [if_pos ho, List.mem_append, mem_pointerOperand]; simp [ho]
        · rw [if_neg ho]; simp [ho]

theorem idPass_none {pre s user} (inv : Inv pre s) (h : idPass s user = none) : ¬ InstOk pre user := by
  unfold idPass at h
  have hspec := operandLoop_spec inv user user.operands 0
  cases hl : operandLoop s user 0 user.operands with
  | none =>
    obtain ⟨k, o, hk, hn⟩ := hspec.2 hl
    rw [Nat.zero_add] at hn
    exact fun h => hn (h.1 k o hk)
  | some ws =>
    rw [hl] at h
    dsimp only at h
    by_cases hc : user.op = .extInstWithForwardRefs ∧ ws = []
    · rintro ⟨-, h2⟩
      obtain ⟨w, hw⟩ := h2 hc.1
      have := ((hspec.1 ws hl).2 w).mpr hw
      rw [hc.2] at this; cases this
    · rw [if_neg hc] at h; cases h

theorem loop_spec : ∀ (rest : List Inst) {pre s} (_ : Inv pre s),
    loop s rest = true ↔
      (∀ p user q, rest = p ++ user :: q → InstOk (pre ++ p) user) ∧ ∀ w, ¬ Pending (pre ++ rest) w
  | [], pre, s, inv => by
    simp only [loop, List.isEmpty_iff, List.append_nil]
    constructor
    · intro h
      refine ⟨fun p u q he => ?_, fun w hw => ?_⟩
      · cases p <;> cases he
      · have := (inv.pending w).mpr hw
        rw [h] at this; cases this
    · rintro ⟨-, h⟩
      cases hu : s.unresolved with
      | nil => rfl
      | cons w ws => exact absurd ((inv.pending w).mp (by rw [hu]; exact List.mem_cons_self)) (h w)
  | user :: rest, pre, s, inv => by
    simp only [loop]
    cases hp : idPass s user with
    | none =>
      refine iff_of_false (by simp) fun h => idPass_none inv hp ?_
      have := h.1 [] user rest rfl
      rwa [List.append_nil] at this
    | some s' =>
      obtain ⟨hok, inv'⟩ := inv_step inv hp
      refine (loop_spec rest inv').trans ?_
      rw [show pre ++ [user] ++ rest = pre ++ user :: rest by simp]
      refine and_congr_left fun _ => ?_
      constructor
      · intro h p u q he
        cases p with
        | nil =>
          simp only [List.nil_append, List.cons.injEq] at he
          rw [List.append_nil, ← he.1]; exact hok
        | cons a p =>
          simp only [List.cons_append, List.cons.injEq] at he
          have := h p u q he.2
          rwa [List.append_assoc, List.singleton_append, he.1] at this
      · intro h p u q he
        have := h (user :: p) u q (by rw [he]; rfl)
        rwa [List.append_assoc, List.singleton_append]

theorem inv_init : Inv [] ⟨[], [], []⟩ where
  defs := fun w d => iff_of_false (by simp [findDef]) firstDef_nil
  pending := fun w => iff_of_false (by simp) (by rintro ⟨p, u, q, h, -⟩; cases p <;> cases h)
  pointers := fun w => iff_of_false (by simp) (by rintro ⟨i, h, -⟩; cases h)

end Verif.IdCheck
