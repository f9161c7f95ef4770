import Verif.Rules.Spec

set_option linter.unusedSimpArgs false
set_option linter.unusedVariables false

/-! # Lemmas: sequencing, lanes, inversion of instructions -/
namespace Verif.Rules

variable {F : Type}

/-! ## Sequencing -/

@[simp] theorem bind_ret {α β} (x : Out α) (f : α → Out β) (b : β) :
    (x >>= f) = .ret b ↔ ∃ a, x = .ret a ∧ f a = .ret b := by
  cases x <;> simp [bind, Out.bind]

@[simp] theorem need_ret (b : Bool) (u : Unit) : need b = .ret u ↔ b = true := by
  cases b <;> simp [need]

@[simp] theorem must_ret (b : Bool) (u : Unit) : must b = .ret u ↔ b = true := by
  cases b <;> simp [must]

@[simp] theorem some?_ret {α} (o : Option α) (a : α) : some? o = .ret a ↔ o = some a := by
  cases o <;> simp [some?]

@[simp] theorem at?_ret {α} (l : List α) (k : Nat) (a : α) : at? l k = .ret a ↔ l[k]? = some a := by
  unfold at?; split <;> simp_all

@[simp] theorem to_ret (op : Op) (as : List (Ref F)) (n : New F) :
    to op as = .ret n ↔ n = ⟨[], op, as⟩ := by
  unfold to; constructor
  · intro h; injection h with h; exact h.symm
  · rintro rfl; rfl

theorem ret_inj {α} (a b : α) : (Out.ret a = .ret b) ↔ b = a := by
  constructor
  · intro h; injection h with h; exact h.symm
  · rintro rfl; rfl

@[simp] theorem orElse_ret (a b : Out (New F)) (n : New F) :
    orElse a b = .ret n ↔ a = .ret n ∨ (a = .no ∧ b = .ret n) := by
  unfold orElse; cases a <;> simp

theorem wide_ret (t : Ty) (u : Unit) (h : wide t = .ret u) :
    (∃ w s, t.base = .int w s ∧ (w = 32 ∨ w = 64)) ∨ ∃ w, t.base = .float w ∧ (w = 32 ∨ w = 64) := by
  unfold wide Ty.elementWidth at h
  cases hb : t.base <;> simp_all

/-! ## Lanes -/

theorem ln_some {x : Option (Val F)} {i : Nat} {s : SV F} :
    ln x i = some s ↔ ∃ v, x = some v ∧ v[i]? = some s := by
  cases x <;> simp [ln]

@[simp] theorem ln_some' (v : Val F) (i : Nat) : ln (some v) i = v[i]? := rfl

@[simp] theorem i2_same (g : ∀ w, BitVec w → BitVec w → R F) (w : Nat) (a b : BitVec w) :
    i2 g (some (.i w a)) (some (.i w b)) = g w a b := by simp [i2]

variable [FloatSem F] [DecidableEq F]

theorem check_ne_ub {b : Base} {r : R F} (h : r.check b ≠ .ub) : r ≠ .ub := by
  cases r <;> simp_all [R.check]

/-- The raw result of the new instruction is at least as good as that of the old one. -/
def Le (old new : R F) : Prop :=
  match old with
  | .ub => True
  | .any => False
  | .undef u => ∃ v, (new = .ok v ∨ new = .undef v) ∧ ∀ b, v.hasTy b = u.hasTy b
  | .ok v => new = .ok v

theorem Le.lane {old new : R F} {b : Base} (h : Le old new) (ho : old.check b ≠ .ub) :
    new.check b ≠ .ub ∧ ∀ s, (new.check b).allows b s → (old.check b).allows b s := by
  cases old with
  | ub => simp [R.check] at ho
  | any => exact h.elim
  | ok v => simp only [Le] at h; subst h; exact ⟨ho, fun s hs => hs⟩
  | undef u =>
    obtain ⟨v, hv, ht⟩ := h
    have hu : u.hasTy b = true := by
      simp only [R.check] at ho
      split at ho <;> simp_all
    have hv' : v.hasTy b = true := by rw [ht, hu]
    rcases hv with rfl | rfl
    · refine ⟨by simp [R.check, hv'], fun s hs => ?_⟩
      simp only [R.check, hv', hu, if_true, R.allows] at hs ⊢
      subst hs; exact hv'
    · refine ⟨by simp [R.check, hv'], fun s hs => ?_⟩
      simpa [R.check, hv', hu, R.allows] using hs

/-- A rewriting without added instructions is right if it is in every lane. -/
theorem rightAt0 {ρ : Id → Option (Val F)} {d : Inst} {op : Op} {as : List (Ref F)}
    (h : ∀ i, i < d.ty.n → lane d.op d.ty (d.args.map ρ) i ≠ .ub →
      Le (raw d.op d.ty (d.args.map ρ) i) (raw op d.ty (as.map (Ref.val ρ [])) i)) :
    RightAt ρ d ⟨[], op, as⟩ := by
  intro hub
  have hl : ∀ i, i < d.ty.n → lane d.op d.ty (d.args.map ρ) i ≠ .ub :=
    fun i hi hx => hub ⟨i, hi, hx⟩
  refine ⟨?_, ?_⟩
  · rintro ⟨i, hi, hx⟩
    exact ((h i hi (hl i hi)).lane (hl i hi)).1 hx
  · rintro v ⟨hv, hr⟩
    refine ⟨hv, fun i hi => ?_⟩
    obtain ⟨s, hs, ha⟩ := hr i hi
    exact ⟨s, hs, ((h i hi (hl i hi)).lane (hl i hi)).2 s ha⟩

theorem refines0 {env : Env F} {d : Inst} {op : Op} {as : List (Ref F)}
    (h : ∀ ρ, Consistent env ρ → ∀ i, i < d.ty.n → lane d.op d.ty (d.args.map ρ) i ≠ .ub →
      Le (raw d.op d.ty (d.args.map ρ) i) (raw op d.ty (as.map (Ref.val ρ [])) i)) :
    Refines env d ⟨[], op, as⟩ := fun ρ hc => rightAt0 (h ρ hc)

/-- A rewriting with one added instruction is right if it is in every lane. -/
theorem refines1 {env : Env F} {d : Inst} {o op : Op} {os as : List (Ref F)}
    (h : ∀ ρ, Consistent env ρ → ∀ i, i < d.ty.n → lane d.op d.ty (d.args.map ρ) i ≠ .ub →
      lane o d.ty (os.map (Ref.val ρ [])) i ≠ .ub ∧
      ∀ ν s, ν.length = d.ty.n → ν[i]? = some s →
        (lane o d.ty (os.map (Ref.val ρ [])) i).allows d.ty.base s →
        Le (raw d.op d.ty (d.args.map ρ) i) (raw op d.ty (as.map (Ref.val ρ [ν])) i)) :
    Refines env d ⟨[(o, os)], op, as⟩ := by
  intro ρ hc hub
  have hl : ∀ i, i < d.ty.n → lane d.op d.ty (d.args.map ρ) i ≠ .ub :=
    fun i hi hx => hub ⟨i, hi, hx⟩
  refine ⟨?_, ?_⟩
  · rintro ⟨i, hi, hx⟩
    exact (h ρ hc i hi (hl i hi)).1 hx
  · rintro ν ⟨hn, hν⟩
    have key : ∀ i, i < d.ty.n →
        Le (raw d.op d.ty (d.args.map ρ) i) (raw op d.ty (as.map (Ref.val ρ [ν])) i) := by
      intro i hi
      obtain ⟨s, hs, ha⟩ := hν i hi
      exact (h ρ hc i hi (hl i hi)).2 ν s hn hs ha
    refine ⟨?_, ?_⟩
    · rintro ⟨i, hi, hx⟩
      exact ((key i hi).lane (hl i hi)).1 hx
    · rintro v ⟨hv, hr⟩
      refine ⟨hv, fun i hi => ?_⟩
      obtain ⟨s, hs, ha⟩ := hr i hi
      exact ⟨s, hs, ((key i hi).lane (hl i hi)).2 s ha⟩

/-- With two added instructions. -/
theorem refines2 {env : Env F} {d : Inst} {o o' op : Op} {os os' as : List (Ref F)}
    (h : ∀ ρ, Consistent env ρ → ∀ i, i < d.ty.n → lane d.op d.ty (d.args.map ρ) i ≠ .ub →
      lane o d.ty (os.map (Ref.val ρ [])) i ≠ .ub ∧
      ∀ ν s, ν.length = d.ty.n → ν[i]? = some s →
        (lane o d.ty (os.map (Ref.val ρ [])) i).allows d.ty.base s →
        lane o' d.ty (os'.map (Ref.val ρ [ν])) i ≠ .ub ∧
        ∀ ν' s', ν'.length = d.ty.n → ν'[i]? = some s' →
          (lane o' d.ty (os'.map (Ref.val ρ [ν])) i).allows d.ty.base s' →
          Le (raw d.op d.ty (d.args.map ρ) i) (raw op d.ty (as.map (Ref.val ρ [ν, ν'])) i)) :
    Refines env d ⟨[(o, os), (o', os')], op, as⟩ := by
  intro ρ hc hub
  have hl : ∀ i, i < d.ty.n → lane d.op d.ty (d.args.map ρ) i ≠ .ub :=
    fun i hi hx => hub ⟨i, hi, hx⟩
  refine ⟨?_, ?_⟩
  · rintro ⟨i, hi, hx⟩
    exact (h ρ hc i hi (hl i hi)).1 hx
  · rintro ν ⟨hn, hν⟩
    refine ⟨?_, ?_⟩
    · rintro ⟨i, hi, hx⟩
      obtain ⟨s, hs, ha⟩ := hν i hi
      exact ((h ρ hc i hi (hl i hi)).2 ν s hn hs ha).1 hx
    · rintro ν' ⟨hn', hν'⟩
      have key : ∀ i, i < d.ty.n →
          Le (raw d.op d.ty (d.args.map ρ) i) (raw op d.ty (as.map (Ref.val ρ [ν, ν'])) i) := by
        intro i hi
        obtain ⟨s, hs, ha⟩ := hν i hi
        obtain ⟨s', hs', ha'⟩ := hν' i hi
        exact ((h ρ hc i hi (hl i hi)).2 ν s hn hs ha).2 ν' s' hn' hs' ha'
      refine ⟨?_, ?_⟩
      · rintro ⟨i, hi, hx⟩
        exact ((key i hi).lane (hl i hi)).1 hx
      · rintro v ⟨hv, hr⟩
        refine ⟨hv, fun i hi => ?_⟩
        obtain ⟨s, hs, ha⟩ := hr i hi
        exact ⟨s, hs, ((key i hi).lane (hl i hi)).2 s ha⟩

variable {env : Env F} {ρ : Id → Option (Val F)} {i : Nat}

theorem Consistent.const_lane (hc : Consistent env ρ) {x : Id} {s : SV F} {c : Const F}
    (hs : ln (ρ x) i = some s) (h : env.const x = some c) : c.lanes[i]? = some s := by
  obtain ⟨v, hv, hi⟩ := ln_some.1 hs
  rw [← hc.consts x v c hv h]; exact hi

theorem Consistent.def_lane (hc : Consistent env ρ) {x : Id} {s : SV F} (hs : ln (ρ x) i = some s) :
    i < (env.get x).ty.n ∧ (lane (env.get x).op (env.get x).ty ((env.get x).args.map ρ) i).allows
      (env.get x).ty.base s := by
  obtain ⟨v, hv, hi⟩ := ln_some.1 hs
  obtain ⟨hn, hr⟩ := hc.defs x v hv
  have : i < v.length := by
    rcases Nat.lt_or_ge i v.length with h | h
    · exact h
    · rw [List.getElem?_eq_none h] at hi; cases hi
  obtain ⟨t, ht, ha⟩ := hr i (by omega)
  rw [hi] at ht; injection ht with ht; subst ht
  exact ⟨by omega, ha⟩

theorem allows_raw {op : Op} {ty : Ty} {args : List (Option (Val F))} {s : SV F}
    (h : (lane op ty args i).allows ty.base s) :
    raw op ty args i = .ok s ∨ raw op ty args i = .any ∨ ∃ u, raw op ty args i = .undef u := by
  unfold lane at h
  cases hr : raw op ty args i with
  | ub => simp [hr, R.check, R.allows] at h
  | any => simp
  | undef u => simp
  | ok v =>
    simp only [hr, R.check] at h
    split at h
    · simp only [R.allows] at h; subst h; simp
    · simp [R.allows] at h

/-- Operations that give neither an uninterpreted nor an unspecified value. -/
def Op.exact : Op → Bool
  | .shl | .shr | .sar | .bitcast | .shuffle _ | .other _ => false
  | _ => true

theorem f2_or {g : F → F → R F} (hg : ∀ a b, g a b = .ub ∨ ∃ s, g a b = .ok s)
    (p q : Option (SV F)) : f2 g p q = .ub ∨ ∃ s, f2 g p q = .ok s := by
  unfold f2; split
  · exact hg _ _
  · exact .inl rfl

theorem i2_or {g : ∀ w, BitVec w → BitVec w → R F}
    (hg : ∀ w a b, g w a b = .ub ∨ ∃ s, g w a b = .ok s)
    (p q : Option (SV F)) : i2 g p q = .ub ∨ ∃ s, i2 g p q = .ok s := by
  unfold i2; split
  · split
    · exact hg _ _ _
    · exact .inl rfl
  · exact .inl rfl

theorem b2_or {g : Bool → Bool → R F} (hg : ∀ a b, g a b = .ub ∨ ∃ s, g a b = .ok s)
    (p q : Option (SV F)) : b2 g p q = .ub ∨ ∃ s, b2 g p q = .ok s := by
  unfold b2; split
  · exact hg _ _
  · exact .inl rfl

theorem raw_exact {op : Op} {ty : Ty} {args : List (Option (Val F))} (h : op.exact = true) :
    raw op ty args i = .ub ∨ ∃ s, raw op ty args i = .ok s := by
  unfold raw
  split <;> first
    | (apply f2_or; intro a b; split <;> simp; done)
    | (apply f2_or; intro a b; simp; done)
    | (apply i2_or; intro w a b; split <;> simp; done)
    | (apply i2_or; intro w a b; simp; done)
    | (apply b2_or; intro a b; simp; done)
    | (simp only [f1, i1, b1]; split <;> simp; done)
    | (simp [Op.exact] at h; done)
    | skip
  · split
    · apply f2_or; intro a b; simp
    · simp
  · split
    · split
      · split <;> simp
      · simp
    · simp
  · split <;> simp
  · simp

end Verif.Rules
