import Verif.Rules.Lemmas

set_option linter.unusedSimpArgs false
set_option linter.unusedVariables false
set_option linter.unusedSectionVars false

/-! # Lemmas: what is known of the operands of an instruction with a result -/
namespace Verif.Rules

variable {F : Type}

theorem f2_ok {g : F → F → R F} {p q : Option (SV F)} {s : SV F} (h : f2 g p q = .ok s) :
    ∃ a b, p = some (.f a) ∧ q = some (.f b) ∧ g a b = .ok s := by
  unfold f2 at h; split at h
  · exact ⟨_, _, rfl, rfl, h⟩
  · cases h

theorem i2_ok {g : ∀ w, BitVec w → BitVec w → R F} {p q : Option (SV F)} {s : SV F}
    (h : i2 g p q = .ok s) :
    ∃ w a b, p = some (.i w a) ∧ q = some (.i w b) ∧ g w a b = .ok s := by
  unfold i2 at h; split at h
  · split at h
    · rename_i w a w' b hw
      subst hw
      exact ⟨_, _, _, rfl, rfl, h⟩
    · cases h
  · cases h

theorem b2_ok {g : Bool → Bool → R F} {p q : Option (SV F)} {s : SV F} (h : b2 g p q = .ok s) :
    ∃ a b, p = some (.b a) ∧ q = some (.b b) ∧ g a b = .ok s := by
  unfold b2 at h; split at h
  · exact ⟨_, _, rfl, rfl, h⟩
  · cases h

theorem f1_ok {g : F → R F} {p : Option (SV F)} {s : SV F} (h : f1 g p = .ok s) :
    ∃ a, p = some (.f a) ∧ g a = .ok s := by
  unfold f1 at h; split at h
  · exact ⟨_, rfl, h⟩
  · cases h

theorem i1_ok {g : ∀ w, BitVec w → R F} {p : Option (SV F)} {s : SV F} (h : i1 g p = .ok s) :
    ∃ w a, p = some (.i w a) ∧ g w a = .ok s := by
  unfold i1 at h; split at h
  · exact ⟨_, _, rfl, h⟩
  · cases h

theorem b1_ok {g : Bool → R F} {p : Option (SV F)} {s : SV F} (h : b1 g p = .ok s) :
    ∃ a, p = some (.b a) ∧ g a = .ok s := by
  unfold b1 at h; split at h
  · exact ⟨_, rfl, h⟩
  · cases h

theorem R.ok_inj {u v : SV F} : (R.ok u = R.ok v) ↔ v = u := by
  constructor
  · intro h; injection h with h; exact h.symm
  · rintro rfl; rfl

variable [FloatSem F] [DecidableEq F] {ρ : Id → Option (Val F)} {i : Nat} {ty : Ty}
  {l : List Id} {s : SV F}

/-- Binary operations have two operands. -/
theorem two_args {op : Op} (h2 : ∀ l : List (Option (Val F)), (∀ x y, l ≠ [x, y]) → raw op ty l i = .ub)
    (h : raw op ty (l.map ρ) i = .ok s) : ∃ p q, l = [p, q] := by
  rcases l with _ | ⟨p, _ | ⟨q, _ | ⟨r, t⟩⟩⟩
  · rw [h2 _ (by simp)] at h; cases h
  · rw [h2 _ (by simp)] at h; cases h
  · exact ⟨p, q, rfl⟩
  · rw [h2 _ (by simp)] at h; cases h

theorem one_arg {op : Op} (h2 : ∀ l : List (Option (Val F)), (∀ x, l ≠ [x]) → raw op ty l i = .ub)
    (h : raw op ty (l.map ρ) i = .ok s) : ∃ p, l = [p] := by
  rcases l with _ | ⟨p, _ | ⟨q, t⟩⟩
  · rw [h2 _ (by simp)] at h; cases h
  · exact ⟨p, rfl⟩
  · rw [h2 _ (by simp)] at h; cases h

local macro "arity" : tactic =>
  `(tactic| (intro l hl; unfold raw; split <;> simp_all))

theorem inv_fadd (h : raw .fadd ty (l.map ρ) i = .ok s) : ∃ p q a b, l = [p, q] ∧
    ln (ρ p) i = some (.f a) ∧ ln (ρ q) i = some (.f b) ∧ s = .f (a + b) := by
  obtain ⟨p, q, rfl⟩ := two_args (by arity) h
  obtain ⟨a, b, h1, h2, h3⟩ := f2_ok h
  exact ⟨p, q, a, b, rfl, h1, h2, R.ok_inj.1 h3⟩

theorem inv_fsub (h : raw .fsub ty (l.map ρ) i = .ok s) : ∃ p q a b, l = [p, q] ∧
    ln (ρ p) i = some (.f a) ∧ ln (ρ q) i = some (.f b) ∧ s = .f (a - b) := by
  obtain ⟨p, q, rfl⟩ := two_args (by arity) h
  obtain ⟨a, b, h1, h2, h3⟩ := f2_ok h
  exact ⟨p, q, a, b, rfl, h1, h2, R.ok_inj.1 h3⟩

theorem inv_fmul (h : raw .fmul ty (l.map ρ) i = .ok s) : ∃ p q a b, l = [p, q] ∧
    ln (ρ p) i = some (.f a) ∧ ln (ρ q) i = some (.f b) ∧ s = .f (a * b) := by
  obtain ⟨p, q, rfl⟩ := two_args (by arity) h
  obtain ⟨a, b, h1, h2, h3⟩ := f2_ok h
  exact ⟨p, q, a, b, rfl, h1, h2, R.ok_inj.1 h3⟩

theorem inv_vts (h : raw .vts ty (l.map ρ) i = .ok s) : ∃ p q a b, l = [p, q] ∧
    ln (ρ p) i = some (.f a) ∧ ln (ρ q) 0 = some (.f b) ∧ s = .f (a * b) := by
  obtain ⟨p, q, rfl⟩ := two_args (by arity) h
  obtain ⟨a, b, h1, h2, h3⟩ := f2_ok h
  exact ⟨p, q, a, b, rfl, h1, h2, R.ok_inj.1 h3⟩

theorem ite_ok {c : Prop} [Decidable c] {u : SV F} (h : (if c then R.ub else .ok u) = .ok s) :
    ¬ c ∧ s = u := by
  split at h
  · cases h
  · exact ⟨by assumption, R.ok_inj.1 h⟩

theorem inv_fdiv (h : raw .fdiv ty (l.map ρ) i = .ok s) : ∃ p q a b, l = [p, q] ∧
    ln (ρ p) i = some (.f a) ∧ ln (ρ q) i = some (.f b) ∧ b ≠ 0 ∧ s = .f (a / b) := by
  obtain ⟨p, q, rfl⟩ := two_args (by arity) h
  obtain ⟨a, b, h1, h2, h3⟩ := f2_ok h
  obtain ⟨h4, h5⟩ := ite_ok h3
  exact ⟨p, q, a, b, rfl, h1, h2, h4, h5⟩

theorem inv_fmod (h : raw .fmod ty (l.map ρ) i = .ok s) : ∃ p q a b, l = [p, q] ∧
    ln (ρ p) i = some (.f a) ∧ ln (ρ q) i = some (.f b) ∧ b ≠ 0 ∧ s = .f (FloatSem.fmod a b) := by
  obtain ⟨p, q, rfl⟩ := two_args (by arity) h
  obtain ⟨a, b, h1, h2, h3⟩ := f2_ok h
  obtain ⟨h4, h5⟩ := ite_ok h3
  exact ⟨p, q, a, b, rfl, h1, h2, h4, h5⟩

theorem inv_fneg (h : raw .fneg ty (l.map ρ) i = .ok s) : ∃ p a, l = [p] ∧
    ln (ρ p) i = some (.f a) ∧ s = .f (-a) := by
  obtain ⟨p, rfl⟩ := one_arg (by arity) h
  obtain ⟨a, h1, h3⟩ := f1_ok h
  exact ⟨p, a, rfl, h1, R.ok_inj.1 h3⟩

theorem inv_fmix (h : raw .fmix ty (l.map ρ) i = .ok s) : ∃ p q r a b c, l = [p, q, r] ∧
    ln (ρ p) i = some (.f a) ∧ ln (ρ q) i = some (.f b) ∧ ln (ρ r) i = some (.f c) ∧
    s = .f (a * (1 - c) + b * c) := by
  have : ∃ p q r, l = [p, q, r] := by
    rcases l with _ | ⟨p, _ | ⟨q, _ | ⟨r, _ | ⟨t, l⟩⟩⟩⟩ <;> simp [raw] at h ⊢
  obtain ⟨p, q, r, rfl⟩ := this
  simp only [List.map_cons, List.map_nil, raw] at h
  split at h
  · obtain ⟨a, b, h1, h2, h3⟩ := f2_ok h
    exact ⟨p, q, r, a, b, _, rfl, h1, h2, by assumption, R.ok_inj.1 h3⟩
  · cases h

theorem inv_iadd (h : raw .iadd ty (l.map ρ) i = .ok s) : ∃ p q w a b, l = [p, q] ∧
    ln (ρ p) i = some (.i w a) ∧ ln (ρ q) i = some (.i w b) ∧ s = .i w (a + b) := by
  obtain ⟨p, q, rfl⟩ := two_args (by arity) h
  simp only [List.map_cons, List.map_nil, raw] at h
  obtain ⟨w, a, b, h1, h2, h3⟩ := i2_ok h
  exact ⟨p, q, w, a, b, rfl, h1, h2, R.ok_inj.1 h3⟩

theorem inv_isub (h : raw .isub ty (l.map ρ) i = .ok s) : ∃ p q w a b, l = [p, q] ∧
    ln (ρ p) i = some (.i w a) ∧ ln (ρ q) i = some (.i w b) ∧ s = .i w (a - b) := by
  obtain ⟨p, q, rfl⟩ := two_args (by arity) h
  simp only [List.map_cons, List.map_nil, raw] at h
  obtain ⟨w, a, b, h1, h2, h3⟩ := i2_ok h
  exact ⟨p, q, w, a, b, rfl, h1, h2, R.ok_inj.1 h3⟩

theorem inv_imul (h : raw .imul ty (l.map ρ) i = .ok s) : ∃ p q w a b, l = [p, q] ∧
    ln (ρ p) i = some (.i w a) ∧ ln (ρ q) i = some (.i w b) ∧ s = .i w (a * b) := by
  obtain ⟨p, q, rfl⟩ := two_args (by arity) h
  simp only [List.map_cons, List.map_nil, raw] at h
  obtain ⟨w, a, b, h1, h2, h3⟩ := i2_ok h
  exact ⟨p, q, w, a, b, rfl, h1, h2, R.ok_inj.1 h3⟩

theorem inv_and (h : raw .and ty (l.map ρ) i = .ok s) : ∃ p q w a b, l = [p, q] ∧
    ln (ρ p) i = some (.i w a) ∧ ln (ρ q) i = some (.i w b) ∧ s = .i w (a &&& b) := by
  obtain ⟨p, q, rfl⟩ := two_args (by arity) h
  simp only [List.map_cons, List.map_nil, raw] at h
  obtain ⟨w, a, b, h1, h2, h3⟩ := i2_ok h
  exact ⟨p, q, w, a, b, rfl, h1, h2, R.ok_inj.1 h3⟩

theorem inv_or (h : raw .or ty (l.map ρ) i = .ok s) : ∃ p q w a b, l = [p, q] ∧
    ln (ρ p) i = some (.i w a) ∧ ln (ρ q) i = some (.i w b) ∧ s = .i w (a ||| b) := by
  obtain ⟨p, q, rfl⟩ := two_args (by arity) h
  simp only [List.map_cons, List.map_nil, raw] at h
  obtain ⟨w, a, b, h1, h2, h3⟩ := i2_ok h
  exact ⟨p, q, w, a, b, rfl, h1, h2, R.ok_inj.1 h3⟩

theorem inv_xor (h : raw .xor ty (l.map ρ) i = .ok s) : ∃ p q w a b, l = [p, q] ∧
    ln (ρ p) i = some (.i w a) ∧ ln (ρ q) i = some (.i w b) ∧ s = .i w (a ^^^ b) := by
  obtain ⟨p, q, rfl⟩ := two_args (by arity) h
  simp only [List.map_cons, List.map_nil, raw] at h
  obtain ⟨w, a, b, h1, h2, h3⟩ := i2_ok h
  exact ⟨p, q, w, a, b, rfl, h1, h2, R.ok_inj.1 h3⟩

theorem inv_sneg (h : raw .sneg ty (l.map ρ) i = .ok s) : ∃ p w a, l = [p] ∧
    ln (ρ p) i = some (.i w a) ∧ s = .i w (-a) := by
  obtain ⟨p, rfl⟩ := one_arg (by arity) h
  obtain ⟨w, a, h1, h3⟩ := i1_ok h
  exact ⟨p, w, a, rfl, h1, R.ok_inj.1 h3⟩

theorem inv_sdiv (h : raw .sdiv ty (l.map ρ) i = .ok s) : ∃ p q w a b, l = [p, q] ∧
    ln (ρ p) i = some (.i w a) ∧ ln (ρ q) i = some (.i w b) ∧ ¬ sdivUB a b = true ∧
    s = .i w (a.sdiv b) := by
  obtain ⟨p, q, rfl⟩ := two_args (by arity) h
  simp only [List.map_cons, List.map_nil, raw] at h
  obtain ⟨w, a, b, h1, h2, h3⟩ := i2_ok h
  obtain ⟨h4, h5⟩ := ite_ok h3
  exact ⟨p, q, w, a, b, rfl, h1, h2, h4, h5⟩

theorem inv_smod (h : raw .smod ty (l.map ρ) i = .ok s) : ∃ p q w a b, l = [p, q] ∧
    ln (ρ p) i = some (.i w a) ∧ ln (ρ q) i = some (.i w b) ∧ ¬ sdivUB a b = true ∧
    s = .i w (a.smod b) := by
  obtain ⟨p, q, rfl⟩ := two_args (by arity) h
  simp only [List.map_cons, List.map_nil, raw] at h
  obtain ⟨w, a, b, h1, h2, h3⟩ := i2_ok h
  obtain ⟨h4, h5⟩ := ite_ok h3
  exact ⟨p, q, w, a, b, rfl, h1, h2, h4, h5⟩

theorem inv_udiv (h : raw .udiv ty (l.map ρ) i = .ok s) : ∃ p q w a b, l = [p, q] ∧
    ln (ρ p) i = some (.i w a) ∧ ln (ρ q) i = some (.i w b) ∧ b ≠ 0#w ∧ s = .i w (a / b) := by
  obtain ⟨p, q, rfl⟩ := two_args (by arity) h
  simp only [List.map_cons, List.map_nil, raw] at h
  obtain ⟨w, a, b, h1, h2, h3⟩ := i2_ok h
  obtain ⟨h4, h5⟩ := ite_ok h3
  exact ⟨p, q, w, a, b, rfl, h1, h2, h4, h5⟩

theorem inv_umod (h : raw .umod ty (l.map ρ) i = .ok s) : ∃ p q w a b, l = [p, q] ∧
    ln (ρ p) i = some (.i w a) ∧ ln (ρ q) i = some (.i w b) ∧ b ≠ 0#w ∧ s = .i w (a % b) := by
  obtain ⟨p, q, rfl⟩ := two_args (by arity) h
  simp only [List.map_cons, List.map_nil, raw] at h
  obtain ⟨w, a, b, h1, h2, h3⟩ := i2_ok h
  obtain ⟨h4, h5⟩ := ite_ok h3
  exact ⟨p, q, w, a, b, rfl, h1, h2, h4, h5⟩

theorem inv_icmp {k : ICmp} (h : raw (.icmp k) ty (l.map ρ) i = .ok s) : ∃ p q w a b, l = [p, q] ∧
    ln (ρ p) i = some (.i w a) ∧ ln (ρ q) i = some (.i w b) ∧ s = .b (k.eval a b) := by
  obtain ⟨p, q, rfl⟩ := two_args (by arity) h
  simp only [List.map_cons, List.map_nil, raw] at h
  obtain ⟨w, a, b, h1, h2, h3⟩ := i2_ok h
  exact ⟨p, q, w, a, b, rfl, h1, h2, R.ok_inj.1 h3⟩

theorem inv_fcmp {o : Bool} {k : FCmpKind} (h : raw (.fcmp o k) ty (l.map ρ) i = .ok s) :
    ∃ p q a b, l = [p, q] ∧ ln (ρ p) i = some (.f a) ∧ ln (ρ q) i = some (.f b) ∧
    s = .b (k.eval o (FloatSem.cmp a b)) := by
  obtain ⟨p, q, rfl⟩ := two_args (by arity) h
  obtain ⟨a, b, h1, h2, h3⟩ := f2_ok h
  exact ⟨p, q, a, b, rfl, h1, h2, R.ok_inj.1 h3⟩

theorem inv_land (h : raw .land ty (l.map ρ) i = .ok s) : ∃ p q a b, l = [p, q] ∧
    ln (ρ p) i = some (.b a) ∧ ln (ρ q) i = some (.b b) ∧ s = .b (a && b) := by
  obtain ⟨p, q, rfl⟩ := two_args (by arity) h
  obtain ⟨a, b, h1, h2, h3⟩ := b2_ok h
  exact ⟨p, q, a, b, rfl, h1, h2, R.ok_inj.1 h3⟩

theorem inv_lor (h : raw .lor ty (l.map ρ) i = .ok s) : ∃ p q a b, l = [p, q] ∧
    ln (ρ p) i = some (.b a) ∧ ln (ρ q) i = some (.b b) ∧ s = .b (a || b) := by
  obtain ⟨p, q, rfl⟩ := two_args (by arity) h
  obtain ⟨a, b, h1, h2, h3⟩ := b2_ok h
  exact ⟨p, q, a, b, rfl, h1, h2, R.ok_inj.1 h3⟩

theorem inv_leq (h : raw .leq ty (l.map ρ) i = .ok s) : ∃ p q a b, l = [p, q] ∧
    ln (ρ p) i = some (.b a) ∧ ln (ρ q) i = some (.b b) ∧ s = .b (a == b) := by
  obtain ⟨p, q, rfl⟩ := two_args (by arity) h
  obtain ⟨a, b, h1, h2, h3⟩ := b2_ok h
  exact ⟨p, q, a, b, rfl, h1, h2, R.ok_inj.1 h3⟩

theorem inv_lne (h : raw .lne ty (l.map ρ) i = .ok s) : ∃ p q a b, l = [p, q] ∧
    ln (ρ p) i = some (.b a) ∧ ln (ρ q) i = some (.b b) ∧ s = .b (a != b) := by
  obtain ⟨p, q, rfl⟩ := two_args (by arity) h
  obtain ⟨a, b, h1, h2, h3⟩ := b2_ok h
  exact ⟨p, q, a, b, rfl, h1, h2, R.ok_inj.1 h3⟩

theorem inv_lnot (h : raw .lnot ty (l.map ρ) i = .ok s) : ∃ p a, l = [p] ∧
    ln (ρ p) i = some (.b a) ∧ s = .b (!a) := by
  obtain ⟨p, rfl⟩ := one_arg (by arity) h
  obtain ⟨a, h1, h3⟩ := b1_ok h
  exact ⟨p, a, rfl, h1, R.ok_inj.1 h3⟩

theorem inv_select (h : raw .select ty (l.map ρ) i = .ok s) : ∃ c p q b u v, l = [c, p, q] ∧
    bc (ρ c) i = some (.b b) ∧ ln (ρ p) i = some u ∧ ln (ρ q) i = some v ∧ s = (if b then u else v) ∧
    u.hasTy ty.base = true ∧ v.hasTy ty.base = true ∧
    (ρ p).map List.length = some ty.n ∧ (ρ q).map List.length = some ty.n ∧
    ((ρ c).map List.length = some 1 ∨ (ρ c).map List.length = some ty.n) := by
  have : ∃ p q r, l = [p, q, r] := by
    rcases l with _ | ⟨p, _ | ⟨q, _ | ⟨r, _ | ⟨t, l⟩⟩⟩⟩ <;> simp [raw] at h ⊢
  obtain ⟨c, p, q, rfl⟩ := this
  simp only [List.map_cons, List.map_nil, raw] at h
  split at h
  · rename_i hl
    split at h
    · rename_i h1 h2 h3
      split at h
      · rename_i ht
        simp only [Bool.and_eq_true] at ht
        exact ⟨c, p, q, _, _, _, rfl, h1, h2, h3, R.ok_inj.1 h, ht.1, ht.2, hl⟩
      · cases h
    · cases h
  · cases h

/-- Shifts. -/
theorem sh_inv {g : ∀ w, BitVec w → Nat → BitVec w} {p q : Option (SV F)} (h : sh g p q ≠ .ub) :
    ∃ w a w' b, p = some (.i w a) ∧ q = some (.i w' b) ∧
    sh g p q = if b.toNat < w then .ok (.i w (g w a b.toNat)) else .undef (.i w a) := by
  unfold sh at h ⊢; split at h
  · exact ⟨_, _, _, _, rfl, rfl, rfl⟩
  · exact absurd rfl h

theorem two_args' {op : Op} (h2 : ∀ l : List (Option (Val F)), (∀ x y, l ≠ [x, y]) → raw op ty l i = .ub)
    (h : raw op ty (l.map ρ) i ≠ .ub) : ∃ p q, l = [p, q] := by
  rcases l with _ | ⟨p, _ | ⟨q, _ | ⟨r, t⟩⟩⟩
  · exact absurd (h2 _ (by simp)) h
  · exact absurd (h2 _ (by simp)) h
  · exact ⟨p, q, rfl⟩
  · exact absurd (h2 _ (by simp)) h

theorem inv_shl (h : raw .shl ty (l.map ρ) i ≠ .ub) : ∃ p q w a w' b, l = [p, q] ∧
    ln (ρ p) i = some (.i w a) ∧ ln (ρ q) i = some (.i w' b) ∧
    raw .shl ty (l.map ρ) i = if b.toNat < w then .ok (.i w (a <<< b.toNat)) else .undef (.i w a) := by
  obtain ⟨p, q, rfl⟩ := two_args' (by arity) h
  obtain ⟨w, a, w', b, h1, h2, h3⟩ := sh_inv h
  exact ⟨p, q, w, a, w', b, rfl, h1, h2, h3⟩

theorem inv_shr (h : raw .shr ty (l.map ρ) i ≠ .ub) : ∃ p q w a w' b, l = [p, q] ∧
    ln (ρ p) i = some (.i w a) ∧ ln (ρ q) i = some (.i w' b) ∧
    raw .shr ty (l.map ρ) i = if b.toNat < w then .ok (.i w (a >>> b.toNat)) else .undef (.i w a) := by
  obtain ⟨p, q, rfl⟩ := two_args' (by arity) h
  obtain ⟨w, a, w', b, h1, h2, h3⟩ := sh_inv h
  exact ⟨p, q, w, a, w', b, rfl, h1, h2, h3⟩

theorem inv_sar (h : raw .sar ty (l.map ρ) i ≠ .ub) : ∃ p q w a w' b, l = [p, q] ∧
    ln (ρ p) i = some (.i w a) ∧ ln (ρ q) i = some (.i w' b) ∧
    raw .sar ty (l.map ρ) i =
      if b.toNat < w then .ok (.i w (a.sshiftRight b.toNat)) else .undef (.i w a) := by
  obtain ⟨p, q, rfl⟩ := two_args' (by arity) h
  obtain ⟨w, a, w', b, h1, h2, h3⟩ := sh_inv h
  exact ⟨p, q, w, a, w', b, rfl, h1, h2, h3⟩

/-- The instruction itself, for operations with exact results. -/
theorem self_ok {d : Inst} (hx : d.op.exact = true) (h : lane d.op d.ty (d.args.map ρ) i ≠ .ub) :
    ∃ s, raw d.op d.ty (d.args.map ρ) i = .ok s ∧ s.hasTy d.ty.base = true := by
  have h' := check_ne_ub h
  rcases raw_exact (F := F) (ty := d.ty) (args := d.args.map ρ) (i := i) hx with h0 | ⟨s, hs⟩
  · exact absurd h0 h'
  · refine ⟨s, hs, ?_⟩
    simp only [lane, hs, R.check] at h
    split at h
    · assumption
    · exact absurd rfl h

/-- The definition of an operand, for operations with exact results. -/
theorem Consistent.def_ok {env : Env F} (hc : Consistent env ρ) {x : Id} {s : SV F}
    (hs : ln (ρ x) i = some s) (hx : (env.get x).op.exact = true) :
    raw (env.get x).op (env.get x).ty ((env.get x).args.map ρ) i = .ok s := by
  have h := (hc.def_lane hs).2
  rcases raw_exact (F := F) (ty := (env.get x).ty) (args := (env.get x).args.map ρ) (i := i) hx with
    h0 | ⟨v, hv⟩
  · simp [lane, h0, R.check, R.allows] at h
  · rcases allows_raw h with h | h | ⟨u, h⟩
    · exact h
    · rw [hv] at h; cases h
    · rw [hv] at h; cases h

end Verif.Rules
