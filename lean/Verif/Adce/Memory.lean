import Verif.Adce.Removal
/-!
# Addresses, loads and stores
-/
set_option linter.unusedSimpArgs false
set_option linter.unusedVariables false
set_option linter.unusedSectionVars false
namespace Verif.Adce
open Spec

variable {D P C E : Type}

section
variable {F : Func}

theorem isLocal_own {v : Id} : F.isLocal v = true ↔ Own F v := by
  unfold Func.isLocal Own
  cases h : F.vars.lookup v with
  | none => simp
  | some s =>
    cases s with
    | function => simp
    | other => simp
    | shared =>
      simp only [Bool.and_eq_true, Bool.not_eq_true', reduceCtorEq, Option.some.injEq, true_and, false_or]
      refine and_congr_right fun _ => ?_
      constructor
      · intro hc i hi ops e
        have : F.hasCall = true := List.any_eq_true.2 ⟨i, hi, by simp [e]⟩
        rw [hc] at this
        cases this
      · intro hc
        cases h : F.hasCall with
        | false => rfl
        | true =>
          exfalso
          obtain ⟨i, hi, e⟩ := List.any_eq_true.1 h
          cases hk : i.kind with
          | call ops => exact hc i hi ops hk
          | _ => simp [hk] at e

variable (hv : Valid F)
include hv

/-- One more than the position of an instruction; 0 for ids from outside. -/
def rk (F : Func) (p : Id) : Nat := ((F.insts.map (·.id)).idxOf p + 1) % (F.insts.length + 1)

omit hv in
theorem rk_le (p : Id) : rk F p ≤ F.insts.length := by
  have : _ < F.insts.length + 1 :=
    Nat.mod_lt ((F.insts.map (·.id)).idxOf p + 1) (Nat.succ_pos F.insts.length)
  unfold rk
  omega

theorem rk_base {u : Inst} {b : Id} {idx : List Id} (hu : u ∈ F.insts) (hk : u.kind = .chain b idx) :
    rk F b < rk F u.id := by
  obtain ⟨l, r, e⟩ := List.append_of_mem hu
  have hb := hv.bases l r u b idx e hk
  have hl : (F.insts.map (·.id)).length = F.insts.length := by simp
  have hn := hv.ids
  rw [e] at hn
  simp only [List.map_append, List.map_cons] at hn
  have hul : u.id ∉ l.map (·.id) := fun h => (List.nodup_append.1 hn).2.2 _ h _ (by simp) rfl
  have hpu : (F.insts.map (·.id)).idxOf u.id = l.length := by
    rw [e]
    simp only [List.map_append, List.map_cons]
    rw [List.idxOf_append]
    simp [hul]
  have hlen : F.insts.length = l.length + r.length + 1 := by rw [e]; simp; omega
  have hru : rk F u.id = l.length + 1 := by
    unfold rk
    rw [hpu, Nat.mod_eq_of_lt (by omega)]
  rw [hru]
  by_cases hm : b ∈ F.insts.map (·.id)
  · have hbl : b ∈ l.map (·.id) := by
      rw [e] at hm
      simp only [List.map_append, List.mem_append] at hm
      rcases hm with hm | hm
      · exact hm
      · obtain ⟨j, hj, ej⟩ := List.mem_map.1 hm
        exact absurd ej (hb j hj)
    have hpb : (F.insts.map (·.id)).idxOf b < l.length := by
      rw [e]
      simp only [List.map_append]
      rw [List.idxOf_append]
      simp only [hbl, if_true]
      simpa using List.idxOf_lt_length_iff.2 hbl
    unfold rk
    rw [Nat.mod_eq_of_lt (by omega)]
    omega
  · have : (F.insts.map (·.id)).idxOf b = F.insts.length := by
      rw [List.idxOf_eq_length hm, hl]
    unfold rk
    rw [this]
    simp

theorem root_stable : ∀ (n : Nat) (p : Id), rk F p < n → F.root n p = F.root (n + 1) p := by
  intro n
  induction n with
  | zero => intro p h; omega
  | succ n ih =>
    intro p h
    rw [Func.root, Func.root]
    by_cases hp : (F.vars.lookup p).isSome = true
    · simp [hp]
    · simp only [hp, if_false]
      cases hf : F.find p with
      | none => rfl
      | some u =>
        obtain ⟨i, k⟩ := u
        cases k with
        | chain b idx =>
          simp only
          have hm := find_mem hf
          have := rk_base hv hm.1 rfl
          rw [hm.2] at this
          exact ih b (by omega)
        | _ => rfl

theorem root_least {p : Id} : ∀ n, rk F p < n → F.root n p = F.root (rk F p + 1) p := by
  intro n
  induction n with
  | zero => intro h; omega
  | succ n ih =>
    intro h
    by_cases he : rk F p = n
    · rw [he]
    · rw [← root_stable hv n p (by omega)]
      exact ih (by omega)

/-- An access chain points into the variable its base points into. -/
theorem varOf_chain {u : Inst} {b : Id} {idx : List Id} (hu : u ∈ F.insts) (hk : u.kind = .chain b idx) :
    F.varOf u.id = F.varOf b := by
  have h1 := rk_base hv hu hk
  have h2 := rk_le (F := F) u.id
  unfold Func.varOf Func.depth
  rw [Func.root, hv.vars u hu, find_eq hv hu]
  obtain ⟨i, k⟩ := u
  simp only at hk
  subst hk
  simp only [Option.isSome_none, Bool.false_eq_true, if_false]
  exact root_stable hv _ b (by simp only at h1 h2; omega)

theorem varOf_other {u : Inst} (hu : u ∈ F.insts) (hk : ∀ b idx, u.kind ≠ .chain b idx) :
    F.varOf u.id = none := by
  unfold Func.varOf Func.depth
  rw [Func.root, hv.vars u hu, find_eq hv hu]
  obtain ⟨i, k⟩ := u
  cases k with
  | chain b idx => exact absurd rfl (hk b idx)
  | _ => simp

omit hv in
theorem varOf_address {p v : Id} (h : F.varOf p = some v) : Address F p ∧ F.isPtr p = true := by
  unfold Func.varOf Func.depth at h
  rw [Func.root] at h
  by_cases hp : (F.vars.lookup p).isSome = true
  · exact ⟨.inl hp, by simp [Func.isPtr, hp]⟩
  · simp only [hp, if_false] at h
    cases hf : F.find p with
    | none => simp [hf] at h
    | some u =>
      obtain ⟨i, k⟩ := u
      cases k with
      | chain b idx =>
        have hm := find_mem hf
        exact ⟨.inr (.inr ⟨_, hm.1, hm.2, b, idx, rfl⟩), by simp [Func.isPtr, hf]⟩
      | _ => simp [hf] at h

omit hv in
theorem varOf_var {v : Id} (h : (F.vars.lookup v).isSome = true) : F.varOf v = some v := by
  unfold Func.varOf Func.depth
  rw [Func.root]
  simp [h]

omit hv in
theorem varOf_outside {p : Id} (h : F.vars.lookup p = none) (hi : ∀ i ∈ F.insts, i.id ≠ p) :
    F.varOf p = none := by
  unfold Func.varOf Func.depth
  rw [Func.root]
  cases hf : F.find p with
  | none => simp [h]
  | some u => exact absurd (find_mem hf).2 (hi u (find_mem hf).1)

/-! ## `AddStores` finds every store through an address -/

omit hv in
theorem stores_succ : ∀ (k : Nat) (p x : Id), x ∈ F.stores k p → x ∈ F.stores (k + 1) p := by
  intro k
  induction k with
  | zero => intro p x h; simp [Func.stores] at h
  | succ k ih =>
    intro p x h
    rw [Func.stores] at h ⊢
    simp only [List.mem_flatMap] at h ⊢
    obtain ⟨u, hu, hx⟩ := h
    refine ⟨u, hu, ?_⟩
    cases hk : u.kind with
    | chain b idx => simp only [hk] at hx ⊢; exact ih _ _ hx
    | _ => simp only [hk] at hx ⊢; exact hx

omit hv in
theorem stores_le {k l : Nat} (h : k ≤ l) {p x : Id} (hx : x ∈ F.stores k p) : x ∈ F.stores l p := by
  induction h with
  | refl => exact hx
  | step _ ih => exact stores_succ _ _ _ ih

omit hv in
theorem stores_root : ∀ (n k : Nat) (p v x : Id), F.root (n + 1) p = some v → x ∈ F.stores k p →
    x ∈ F.stores (k + n) v := by
  intro n
  induction n with
  | zero =>
    intro k p v x h hx
    rw [Func.root] at h
    by_cases hp : (F.vars.lookup p).isSome = true
    · simp only [hp, if_true, Option.some.injEq] at h
      subst h
      exact hx
    · simp only [hp, if_false] at h
      exfalso
      cases hf : F.find p with
      | none => simp [hf] at h
      | some u =>
        obtain ⟨i, kd⟩ := u
        cases kd with
        | chain b idx => simp [hf, Func.root] at h
        | _ => simp [hf] at h
  | succ n ih =>
    intro k p v x h hx
    rw [Func.root] at h
    by_cases hp : (F.vars.lookup p).isSome = true
    · simp only [hp, if_true, Option.some.injEq] at h
      subst h
      exact stores_le (by omega) hx
    · simp only [hp, if_false] at h
      cases hf : F.find p with
      | none => simp [hf] at h
      | some u =>
        obtain ⟨i, kd⟩ := u
        have hm := find_mem hf
        simp only at hm
        cases kd with
        | chain b idx =>
          simp only [hf] at h
          have := ih (k + 1) b v x h (by
            rw [Func.stores]
            simp only [List.mem_flatMap, List.mem_filter]
            exact ⟨_, ⟨hm.1, by simp [Kind.ops]⟩, by simp only [hm.2]; exact hx⟩)
          rw [show k + (n + 1) = k + 1 + n by omega]
          exact this
        | _ => simp [hf] at h

/-- The address an instruction writes through. -/
def target : Kind → Option Id
  | .store p _ => some p
  | .copy t _ => some t
  | _ => none

theorem stores_target {u : Inst} {p v : Id} (hu : u ∈ F.insts) (ht : target u.kind = some p)
    (hp : F.varOf p = some v) : u.id ∈ F.stores F.depth v := by
  have h1 : F.root (rk F p + 1) p = some v := by
    rw [← root_least hv F.depth (by have := rk_le (F := F) p; unfold Func.depth; omega)]
    exact hp
  refine stores_le (k := 1 + rk F p) ?_ (stores_root _ 1 p v _ h1 ?_)
  · have := rk_le (F := F) p
    unfold Func.depth
    omega
  · rw [Func.stores]
    simp only [List.mem_flatMap, List.mem_filter]
    refine ⟨u, ⟨hu, ?_⟩, ?_⟩
    · cases hk : u.kind <;> rw [hk] at ht <;> simp [target] at ht <;> simp [Kind.ops, ht]
    · cases hk : u.kind <;> rw [hk] at ht <;> simp [target] at ht <;> simp [ht]

/-- Variables whose contents matter: those others can see, and those a live instruction loads. -/
def Seen (F : Func) (v : Id) : Prop :=
  ¬ Own F v ∨ ∃ u ∈ F.insts, Item.inst u.id ∈ F.live ∧ v ∈ F.loaded u.kind

/-- Addresses point where `GetPtr` says. -/
def Addr (F : Func) (p v : Id) : Prop := F.varOf p = some v ∨ (¬ Own F v ∧ F.varOf p = none)

/-- A dead store or copy writes to a variable whose contents do not matter. -/
theorem dead_target {u : Inst} {p v : Id} (hu : u ∈ F.insts) (ht : target u.kind = some p)
    (hd : Item.inst u.id ∉ F.live) (ha : Addr F p v) : ¬ Seen F v := by
  have hr : F.isRoot u.kind = false := by
    cases h : F.isRoot u.kind with
    | false => rfl
    | true => exact absurd (live_isRoot hu h) hd
  have hla : F.isLocalAddr p = true := by
    cases hk : u.kind <;> rw [hk] at ht hr <;> simp [target] at ht <;> subst ht <;>
      simpa [Func.isRoot] using hr
  unfold Func.isLocalAddr at hla
  cases hvp : F.varOf p with
  | none => simp [hvp] at hla
  | some v0 =>
    simp only [hvp] at hla
    have e : v0 = v := by
      rcases ha with h | ⟨_, h⟩
      · rw [hvp] at h; cases h; rfl
      · rw [hvp] at h; cases h
    subst e
    rintro (h | ⟨w, hw, hwl, hwv⟩)
    · exact h (isLocal_own.1 hla)
    · refine hd (live_deps hwl ?_ (item_inst hu))
      simp only [Func.deps, find_eq hv hw]
      refine List.mem_append_right _ (List.mem_map.2 ⟨u.id, ?_, rfl⟩)
      simp only [Func.loadDeps, List.mem_flatMap, List.mem_filter]
      exact ⟨v0, ⟨hwv, hla⟩, stores_target hv hu ht hvp⟩

/-! ## One instruction -/

/-- Two environments agree on what is live. -/
def Agree (F : Func) (e₁ e₂ : Env D P) : Prop := ∀ i, Item.inst i ∈ F.live → e₁ i = e₂ i

def Same (F : Func) (m₁ m₂ : Mem C) : Prop := ∀ v, Seen F v → m₁ v = m₂ v

def AddrsOk (F : Func) (env : Env D P) : Prop := ∀ i v q, env i = some (.ptr v q) → Addr F i v

def LiveAddrsOk (F : Func) (env : Env D P) : Prop :=
  ∀ i, Item.inst i ∈ F.live → ∀ v q, env i = some (.ptr v q) → Addr F i v

omit hv in
theorem reads_agree {e₁ e₂ : Env D P} {ops : List Id} {xs : List (Val D P)} (h : Reads e₁ ops xs)
    (ha : ∀ o ∈ ops, e₁ o = e₂ o) : Reads e₂ ops xs := by
  unfold Reads at h ⊢
  rw [← h]
  apply List.map_congr_left
  intro o ho
  exact (ha o ho).symm

omit hv in
theorem agree_define {e₁ e₂ : Env D P} (ha : Agree F e₁ e₂) (i : Id) (x : Val D P) :
    Agree F (define e₁ i x) (define e₂ i x) := by
  intro j hj
  simp only [define]
  split
  · rfl
  · exact ha j hj

omit hv in
theorem same_write {m₁ m₂ : Mem C} (hm : Same F m₁ m₂) {v : Id} {c₁ c₂ : C} (h : Seen F v → c₁ = c₂) :
    Same F (write m₁ v c₁) (write m₂ v c₂) := by
  intro w hw
  simp only [write]
  split
  · next e => subst e; exact h hw
  · exact hm w hw

omit hv in
theorem seen_addr {u : Inst} {p v : Id} (hu : u ∈ F.insts) (hl : Item.inst u.id ∈ F.live)
    (ha : Addr F p v) (hp : ∀ w, F.varOf p = some w → w ∈ F.loaded u.kind) : Seen F v := by
  rcases ha with h | ⟨h, _⟩
  · exact .inr ⟨u, hu, hl, hp v h⟩
  · exact .inl h

theorem act_live {S : Sem D P C E} (hf : S.Fits F) {u : Inst} {e₁ e₂ e₁' : Env D P} {m₁ m₂ m₁' : Mem C}
    {ev : List E} (hu : u ∈ F.insts) (hl : Item.inst u.id ∈ F.live) (h : Act S u e₁ m₁ e₁' m₁' ev)
    (ha : Agree F e₁ e₂) (hm : Same F m₁ m₂) (hp : LiveAddrsOk F e₁) :
    ∃ e₂' m₂', Act S u e₂ m₂ e₂' m₂' ev ∧ Agree F e₁' e₂' ∧ Same F m₁' m₂' := by
  have hop : ∀ o ∈ u.kind.ops, Item.inst o ∈ F.live := fun o ho => live_ops hv hu hl ho
  have hag : ∀ o ∈ u.kind.ops, e₁ o = e₂ o := fun o ho => ha o (hop o ho)
  have heff : ∀ (i : Id) (rd : List Id) (xs rs : List (Val D P)) (x : D) (m' : Mem C) (e : E),
      S.eff i xs rs m₁ x m' e → Reads e₁ rd rs → (∀ o ∈ rd, o ∈ u.kind.ops) →
      (∀ o ∈ rd, ∀ w, F.varOf o = some w → w ∈ F.loaded u.kind) →
      ∃ m₂', S.eff i xs rs m₂ x m₂' e ∧ Same F m' m₂' := by
    intro i rd xs rs x m' e h1 h2 h3 h4
    refine hf.frame i xs rs m₁ x m' e m₂ (Seen F) h1 (fun v hv => .inl hv) ?_ hm
    intro v q hvq
    have : some (Val.ptr v q) ∈ rd.map e₁ := by
      rw [h2]
      exact List.mem_map.2 ⟨_, hvq, rfl⟩
    obtain ⟨o, ho, eo⟩ := List.mem_map.1 this
    exact seen_addr hu hl (hp o (hop o (h3 o ho)) v q eo) (h4 o ho)
  cases h with
  | @chain i b idx _ _ v q xs q' h1 h2 h3 =>
    refine ⟨_, _, .chain (by rw [← hag b (by simp [Kind.ops])]; exact h1)
      (reads_agree h2 (fun o ho => hag o (by simp [Kind.ops, ho]))) h3, agree_define ha _ _, hm⟩
  | @load i p _ _ v q x h1 h2 =>
    have hs : Seen F v := seen_addr hu hl (hp p (hop p (by simp [Kind.ops])) v q h1)
      (by intro w hw; simp [Func.loaded, hw])
    refine ⟨_, _, .load (by rw [← hag p (by simp [Kind.ops])]; exact h1) (by rw [← hm v hs]; exact h2),
      agree_define ha _ _, hm⟩
  | @store i p w _ _ v q x h1 h2 =>
    refine ⟨_, _, .store (by rw [← hag p (by simp [Kind.ops])]; exact h1)
      (by rw [← hag w (by simp [Kind.ops])]; exact h2), ha, same_write hm (fun hs => by rw [hm v hs])⟩
  | @copy i t s _ _ v q v' q' x h1 h2 h3 =>
    have hs : Seen F v' := seen_addr hu hl (hp s (hop s (by simp [Kind.ops])) v' q' h2)
      (by intro w hw; simp [Func.loaded, hw])
    refine ⟨_, _, .copy (by rw [← hag t (by simp [Kind.ops])]; exact h1)
      (by rw [← hag s (by simp [Kind.ops])]; exact h2) (by rw [← hm v' hs]; exact h3), ha,
      same_write hm (fun hs => by rw [hm v hs])⟩
  | @pure i ops _ _ xs x h1 h2 =>
    exact ⟨_, _, .pure (reads_agree h1 hag) h2, agree_define ha _ _, hm⟩
  | @effect i ops rd _ _ xs rs x m' e h1 h2 h3 =>
    have hrd := hv.reads _ hu ops rd rfl
    obtain ⟨m₂', h4, h5⟩ := heff i rd xs rs x m₁' e h3 h2 hrd
      (by intro o ho w hw; simp only [Func.loaded, List.mem_filterMap]; exact ⟨o, ho, hw⟩)
    exact ⟨_, _, .effect (reads_agree h1 hag) (reads_agree h2 (fun o ho => hag o (hrd o ho))) h4,
      agree_define ha _ _, h5⟩
  | @call i ops _ _ xs x m' e h1 h2 =>
    obtain ⟨m₂', h4, h5⟩ := heff i ops xs xs x m₁' e h2 h1 (fun o ho => ho)
      (by
        intro o ho w hw
        simp only [Func.loaded, List.mem_filterMap, List.mem_filter]
        exact ⟨o, ⟨ho, (varOf_address hw).2⟩, hw⟩)
    exact ⟨_, _, .call (reads_agree h1 hag) h4, agree_define ha _ _, h5⟩

theorem act_dead {S : Sem D P C E} {u : Inst} {env env' : Env D P} {m m' : Mem C} {ev : List E}
    (hu : u ∈ F.insts) (hd : Item.inst u.id ∉ F.live) (h : Act S u env m env' m' ev) (hp : AddrsOk F env) :
    ev = [] ∧ Agree F env' env ∧ Same F m' m := by
  have hdef : ∀ x, Agree F (define env u.id x) env := by
    intro x j hj
    simp only [define]
    split
    · next e => rw [e] at hj; exact absurd hj hd
    · rfl
  have hwr : ∀ p v c q, target u.kind = some p → env p = some (.ptr v q) → Same F (write m v c) m := by
    intro p v c q ht he w hw
    simp only [write]
    split
    · next e => subst e; exact absurd hw (dead_target hv hu ht hd (hp p _ q he))
    · rfl
  cases h with
  | chain h1 h2 h3 => exact ⟨rfl, hdef _, fun _ _ => rfl⟩
  | load h1 h2 => exact ⟨rfl, hdef _, fun _ _ => rfl⟩
  | store h1 h2 => exact ⟨rfl, fun _ _ => rfl, hwr _ _ _ _ rfl h1⟩
  | copy h1 h2 h3 => exact ⟨rfl, fun _ _ => rfl, hwr _ _ _ _ rfl h1⟩
  | pure h1 h2 => exact ⟨rfl, hdef _, fun _ _ => rfl⟩
  | effect h1 h2 h3 => exact absurd (live_isRoot hu rfl) hd
  | call h1 h2 => exact absurd (live_isRoot hu rfl) hd

theorem act_addrs {S : Sem D P C E} {u : Inst} {env env' : Env D P} {m m' : Mem C} {ev : List E}
    (hu : u ∈ F.insts) (h : Act S u env m env' m' ev) (hp : AddrsOk F env) : AddrsOk F env' := by
  have hnum : ∀ x, AddrsOk F (define env u.id (.num x)) := by
    intro x i v q h
    simp only [define] at h
    split at h
    · cases h
    · exact hp i v q h
  cases h with
  | @chain i b idx _ _ v q xs q' h1 h2 h3 =>
    intro j w q'' h
    simp only [define] at h
    split at h
    · next e =>
      have ew : v = w := by cases h; rfl
      subst ew
      subst e
      have := varOf_chain hv hu (rfl : (Inst.mk j (.chain b idx)).kind = _)
      simp only at this
      unfold Addr
      rw [this]
      exact hp b v q h1
    · exact hp j w q'' h
  | load h1 h2 => exact hnum _
  | store h1 h2 => exact hp
  | copy h1 h2 h3 => exact hp
  | pure h1 h2 => exact hnum _
  | effect h1 h2 h3 => exact hnum _
  | call h1 h2 => exact hnum _

theorem start_addrs {S : Sem D P C E} (hf : S.Fits F) : AddrsOk F (startEnv F S) := by
  intro i v q h
  unfold startEnv at h
  by_cases hi : (F.vars.lookup i).isSome = true
  · simp only [hi, if_true, Option.some.injEq, Val.ptr.injEq] at h
    rw [← h.1]
    exact .inl (varOf_var hi)
  · simp only [hi, if_false] at h
    refine .inr ⟨hf.start i v q h, varOf_outside (by cases hl : F.vars.lookup i <;> simp [hl] at hi ⊢) ?_⟩
    intro u hu e
    have := hf.outside u hu
    rw [e] at this
    rw [this] at h
    cases h

end

end Verif.Adce
