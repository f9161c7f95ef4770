import Verif.Rules.Logic

set_option linter.unusedSimpArgs false
set_option linter.unusedVariables false
set_option linter.unusedSectionVars false

/-! # Binary operations on a constant and a select of constants -/
namespace Verif.Rules

variable {F : Type} [FloatSem F] [DecidableEq F] {env : Env F} {d : Inst} {new : New F}
  {ρ : Id → Option (Val F)} {i : Nat}

/-- The lane of the second operand that lane `i` looks at. -/
def rhsLane (op : Op) (i : Nat) : Nat := if op = .vts then 0 else i

section Lifts
omit [FloatSem F] [DecidableEq F]

theorem i2_kind {b b0 : Base} {g : ∀ w, BitVec w → BitVec w → R F}
    (hg : ∀ w a c a' c', (g w a c).check b ≠ .ub → (g w a' c').check b ≠ .ub)
    {p u v : SV F} (hu : u.hasTy b0 = true) (hv : v.hasTy b0 = true) :
    ((i2 g (some p) (some u)).check b ≠ .ub → (i2 g (some p) (some v)).check b ≠ .ub) ∧
    ((i2 g (some u) (some p)).check b ≠ .ub → (i2 g (some v) (some p)).check b ≠ .ub) := by
  cases u with
  | i w a =>
    cases v with
    | i w' a' =>
      have : w' = w := by cases b0 <;> simp_all [SV.hasTy]
      subst this
      cases p with
      | i w'' c =>
        simp only [i2]
        constructor
        · by_cases h : w' = w''
          · subst h; simpa using hg _ _ _ _ _
          · simp [h, R.check]
        · by_cases h : w'' = w'
          · subst h; simpa using hg _ _ _ _ _
          · simp [h, R.check]
      | _ => simp [i2, R.check]
    | _ => cases b0 <;> simp_all [SV.hasTy]
  | _ => constructor <;> cases p <;> simp [i2, R.check]

theorem f2_kind {b b0 : Base} {g : F → F → R F}
    (hg : ∀ a c a' c', (g a c).check b ≠ .ub → (g a' c').check b ≠ .ub)
    {p u v : SV F} (hu : u.hasTy b0 = true) (hv : v.hasTy b0 = true) :
    ((f2 g (some p) (some u)).check b ≠ .ub → (f2 g (some p) (some v)).check b ≠ .ub) ∧
    ((f2 g (some u) (some p)).check b ≠ .ub → (f2 g (some v) (some p)).check b ≠ .ub) := by
  cases u with
  | f a =>
    cases v with
    | f a' =>
      cases p with
      | f c => exact ⟨hg _ _ _ _, hg _ _ _ _⟩
      | _ => simp [f2, R.check]
    | _ => cases b0 <;> simp_all [SV.hasTy]
  | _ => constructor <;> cases p <;> simp [f2, R.check]

theorem b2_kind {b b0 : Base} {g : Bool → Bool → R F}
    (hg : ∀ a c a' c', (g a c).check b ≠ .ub → (g a' c').check b ≠ .ub)
    {p u v : SV F} (hu : u.hasTy b0 = true) (hv : v.hasTy b0 = true) :
    ((b2 g (some p) (some u)).check b ≠ .ub → (b2 g (some p) (some v)).check b ≠ .ub) ∧
    ((b2 g (some u) (some p)).check b ≠ .ub → (b2 g (some v) (some p)).check b ≠ .ub) := by
  cases u with
  | b a =>
    cases v with
    | b a' =>
      cases p with
      | b c => exact ⟨hg _ _ _ _, hg _ _ _ _⟩
      | _ => simp [b2, R.check]
    | _ => cases b0 <;> simp_all [SV.hasTy]
  | _ => constructor <;> cases p <;> simp [b2, R.check]

theorem sh_kind {b b0 : Base} {g : ∀ w, BitVec w → Nat → BitVec w}
    {p u v : SV F} (hu : u.hasTy b0 = true) (hv : v.hasTy b0 = true) :
    ((sh g (some p) (some u)).check b ≠ .ub → (sh g (some p) (some v)).check b ≠ .ub) ∧
    ((sh g (some u) (some p)).check b ≠ .ub → (sh g (some v) (some p)).check b ≠ .ub) := by
  have ok : ∀ w (a : BitVec w) w' (s : BitVec w'), (sh g (some (.i w a)) (some (.i w' s)) : R F).check b ≠ .ub ↔
      SV.hasTy (F := F) b (.i w a) = true := by
    intro w a w' s
    have : ∀ c : BitVec w, SV.hasTy (F := F) b (.i w c) = SV.hasTy (F := F) b (.i w a) := by
      intro c; cases b <;> rfl
    simp only [sh]
    split <;> simp [R.check, this]
  cases u with
  | i w a =>
    cases v with
    | i w' a' =>
      have : w' = w := by cases b0 <;> simp_all [SV.hasTy]
      subst this
      cases p with
      | i w'' c =>
        rw [ok, ok, ok, ok]
        refine ⟨id, fun h => ?_⟩
        cases b <;> simp_all [SV.hasTy]
      | _ => simp [sh, R.check]
    | _ => cases b0 <;> simp_all [SV.hasTy]
  | _ => constructor <;> cases p <;> simp [sh, R.check]

theorem i2_ne {g : ∀ w, BitVec w → BitVec w → R F} {p q : Option (SV F)} (h : i2 g p q ≠ .ub) :
    ∃ u v, p = some u ∧ q = some v := by
  unfold i2 at h; split at h
  · exact ⟨_, _, rfl, rfl⟩
  · exact absurd rfl h

theorem f2_ne {g : F → F → R F} {p q : Option (SV F)} (h : f2 g p q ≠ .ub) :
    ∃ u v, p = some u ∧ q = some v := by
  unfold f2 at h; split at h
  · exact ⟨_, _, rfl, rfl⟩
  · exact absurd rfl h

theorem b2_ne {g : Bool → Bool → R F} {p q : Option (SV F)} (h : b2 g p q ≠ .ub) :
    ∃ u v, p = some u ∧ q = some v := by
  unfold b2 at h; split at h
  · exact ⟨_, _, rfl, rfl⟩
  · exact absurd rfl h

theorem sh_ne {g : ∀ w, BitVec w → Nat → BitVec w} {p q : Option (SV F)} (h : sh g p q ≠ .ub) :
    ∃ u v, p = some u ∧ q = some v := by
  unfold sh at h; split at h
  · exact ⟨_, _, rfl, rfl⟩
  · exact absurd rfl h

end Lifts

theorem selectOps_cases {P : Op → Prop} {op : Op} (h : op ∈ selectOps)
    (h1 : P .leq) (h2 : P .lne) (h3 : P .land) (h4 : P .lor) (h5 : ∀ k, P (.icmp k))
    (h6 : ∀ o k, P (.fcmp o k)) (h7 : P .iadd) (h8 : P .fadd) (h9 : P .isub) (h10 : P .fsub)
    (h11 : P .imul) (h12 : P .fmul) (h13 : P .udiv) (h14 : P .sdiv) (h15 : P .fdiv) (h16 : P .vts)
    (h17 : P .shr) (h18 : P .sar) (h19 : P .shl) (h20 : P .xor) (h21 : P .or) (h22 : P .and) : P op := by
  cases op <;> first
    | assumption
    | exact h5 _
    | exact h6 _ _
    | (simp [selectOps] at h)

/-- Lane `i` only depends on the lanes it looks at. -/
theorem raw_congr {op : Op} (hop : op ∈ selectOps) {ty ty' : Ty} {x y x' y' : Option (Val F)}
    (hx : ln x i = ln x' i) (hy : ln y (rhsLane op i) = ln y' (rhsLane op i)) :
    raw op ty [x, y] i = raw op ty' [x', y'] i := by
  revert hy
  apply selectOps_cases hop <;> intros <;>
    simp_all [raw, rhsLane]

/-- Whether a lane has undefined behaviour only depends on the kinds of the operands. -/
theorem raw_kind {op : Op} (hop : op ∈ selectOps) (hd : op.division = false) {b b0 : Base}
    {ty : Ty} {z x y : Option (Val F)} {p u v : SV F}
    (hu : u.hasTy b0 = true) (hv : v.hasTy b0 = true) :
    (ln z i = some p → ln x (rhsLane op i) = some u → ln y (rhsLane op i) = some v →
      (raw op ty [z, x] i).check b ≠ .ub → (raw op ty [z, y] i).check b ≠ .ub) ∧
    (ln z (rhsLane op i) = some p → ln x i = some u → ln y i = some v →
      (raw op ty [x, z] i).check b ≠ .ub → (raw op ty [y, z] i).check b ≠ .ub) := by
  revert hd
  have ok : ∀ {u v : SV F}, (∀ b, u.hasTy b = v.hasTy b) → (R.ok u).check b ≠ .ub → (R.ok v).check b ≠ .ub := by
    intro u v h; simp only [R.check, h b]; split <;> simp
  apply selectOps_cases hop <;> intros <;> rename_i hd
  all_goals
    first
    | (simp [Op.division] at hd; done)
    | (constructor
       · intro e1 e2 e3
         simp only [raw, rhsLane, if_true, reduceCtorEq, if_false] at e1 e2 e3 ⊢
         rw [e1, e2, e3]
         first
         | exact (b2_kind (fun _ _ _ _ => ok (fun b => by cases b <;> rfl)) hu hv).1
         | exact (f2_kind (fun _ _ _ _ => ok (fun b => by cases b <;> rfl)) hu hv).1
         | exact (i2_kind (fun _ _ _ _ _ => ok (fun b => by cases b <;> rfl)) hu hv).1
         | exact (sh_kind hu hv).1
       · intro e1 e2 e3
         simp only [raw, rhsLane, if_true, reduceCtorEq, if_false] at e1 e2 e3 ⊢
         rw [e1, e2, e3]
         first
         | exact (b2_kind (fun _ _ _ _ => ok (fun b => by cases b <;> rfl)) hu hv).2
         | exact (f2_kind (fun _ _ _ _ => ok (fun b => by cases b <;> rfl)) hu hv).2
         | exact (i2_kind (fun _ _ _ _ _ => ok (fun b => by cases b <;> rfl)) hu hv).2
         | exact (sh_kind hu hv).2)

/-- The operations have two operands, both with a value in the lane looked at. -/
theorem selectOps_args {op : Op} (hop : op ∈ selectOps) {ty : Ty} {l : List Id}
    (h : raw op ty (l.map ρ) i ≠ .ub) :
    ∃ p q u v, l = [p, q] ∧ ln (ρ p) i = some u ∧ ln (ρ q) (rhsLane op i) = some v := by
  have : ∃ p q, l = [p, q] := by
    apply two_args' _ h
    intro l hl
    apply selectOps_cases (P := fun op => raw op ty l i = .ub) hop <;> intros <;> (unfold raw; split <;> simp_all)
  obtain ⟨p, q, rfl⟩ := this
  have : ∃ u v, ln (ρ p) i = some u ∧ ln (ρ q) (rhsLane op i) = some v := by
    revert h
    apply selectOps_cases hop <;> intros <;> rename_i h <;>
      simp only [List.map_cons, List.map_nil, raw, rhsLane, if_true, reduceCtorEq, if_false] at h ⊢ <;>
      first
      | exact f2_ne h
      | exact i2_ne h
      | exact b2_ne h
      | exact sh_ne h
  obtain ⟨u, v, hu, hv⟩ := this
  exact ⟨p, q, u, v, rfl, hu, hv⟩

theorem selectOps_not_any {op : Op} (hop : op ∈ selectOps) {ty : Ty} {x y : Option (Val F)} :
    raw op ty [x, y] i ≠ .any := by
  by_cases hx : op.exact = true
  · rcases raw_exact (F := F) (ty := ty) (args := [x, y]) (i := i) hx with h | ⟨s, h⟩ <;> simp [h]
  · revert hx
    apply selectOps_cases hop <;> intros <;> rename_i hx <;>
      first
      | (exact absurd rfl hx)
      | (simp only [raw, sh]; split <;> (try split) <;> simp)

/-- The select that replaces the operation. -/
theorem select_le {old : R F} {ty : Ty} {c : Option (Val F)} {ν ν' : Val F} {k : Bool} {s s' : SV F}
    (hc : bc c i = some (.b k)) (hl : c.map List.length = some 1 ∨ c.map List.length = some ty.n)
    (hn : ν.length = ty.n) (hn' : ν'.length = ty.n) (hs : ν[i]? = some s) (hs' : ν'[i]? = some s')
    (ht : s.hasTy ty.base = true) (ht' : s'.hasTy ty.base = true) (hany : old ≠ .any)
    (h : (old.check ty.base).allows ty.base (if k then s else s')) :
    Le old (raw .select ty [c, some ν, some ν'] i) := by
  have hr : raw .select ty [c, some ν, some ν'] i = .ok (if k then s else s') := by
    simp only [raw, Option.map_some, hn, hn', true_and, ln_some', hc, hs, hs', ht, ht', Bool.and_true,
      if_true]
    rw [if_pos hl]
  rw [hr]
  have ht2 : (if k then s else s').hasTy ty.base = true := by cases k <;> simpa
  cases old with
  | ub => trivial
  | any => exact absurd rfl hany
  | ok v =>
    simp only [R.check] at h
    split at h
    · simp only [R.allows] at h; rw [h]; rfl
    · exact h.elim
  | undef u =>
    simp only [R.check] at h
    split at h
    · rename_i hu; exact ⟨_, .inl rfl, fun b => hasTy_same ht2 hu b⟩
    · exact h.elim

/-- What is known of the folded side. -/
theorem folded_side (hf : FoldRight env) {x y : Id} {k : Const F} (h : foldAdded env d x y = some k) :
    k.lanes.length = d.ty.n ∧ ∀ i, i < d.ty.n → ∃ s, k.lanes[i]? = some s ∧ s.hasTy d.ty.base = true ∧
      ∀ ρ, Consistent env ρ → (∃ v, ρ x = some v) → (∃ v, ρ y = some v) →
        lane d.op d.ty [ρ x, ρ y] i ≠ .ub → (lane d.op d.ty [ρ x, ρ y] i).allows d.ty.base s := by
  unfold foldAdded at h
  split at h
  · rename_i a b ha hb
    obtain ⟨hl, hr⟩ := hf _ _ _ _ _ h
    refine ⟨hl, fun i hi => ?_⟩
    obtain ⟨s, hs, ht, hr⟩ := hr i hi
    refine ⟨s, hs, ht, ?_⟩
    rintro ρ hc ⟨vx, hx⟩ ⟨vy, hy⟩
    rw [hx, hy, hc.consts x vx a hx ha, hc.consts y vy b hy hb]
    exact hr
  · cases h

/-- What is known in a lane of the operation on the select: the values of both alternatives, and
that the operation is that on the alternative chosen. -/
theorem selected (hshape : Shaped env d) (hc : Consistent env ρ) (hi : i < d.ty.n)
    (hop : d.op ∈ selectOps)
    (hu : lane d.op d.ty (d.args.map ρ) i ≠ .ub) {x c t f a b l1 l2 r1 r2 : Id} {first : Bool}
    (hx : env.nonConst d = .ret x) (he : (env.get x).op = .select)
    (hcl : (env.get x).args[0]? = some c) (ht : (env.get x).args[1]? = some t)
    (hf : (env.get x).args[2]? = some f) (ha : d.args[0]? = some a) (hb : d.args[1]? = some b)
    (hfirst : first = (env.const a).isSome)
    (hl : (l1, l2) = if first then (a, t) else (t, b)) (hr : (r1, r2) = if first then (a, f) else (f, b)) :
    ∃ k, bc (ρ c) i = some (.b k) ∧
      ((ρ c).map List.length = some 1 ∨ (ρ c).map List.length = some d.ty.n) ∧
      (∃ v, ρ l1 = some v) ∧ (∃ v, ρ l2 = some v) ∧ (∃ v, ρ r1 = some v) ∧ (∃ v, ρ r2 = some v) ∧
      raw d.op d.ty (d.args.map ρ) i = (if k then raw d.op d.ty [ρ l1, ρ l2] i else raw d.op d.ty [ρ r1, ρ r2] i) ∧
      (d.op.division = false → lane d.op d.ty [ρ l1, ρ l2] i ≠ .ub ∧ lane d.op d.ty [ρ r1, ρ r2] i ≠ .ub) := by
  obtain ⟨p, q, u, v, hargs, hp, hq⟩ := selectOps_args hop (check_ne_ub hu)
  have hxx := nonConst_ret hargs hx
  simp [hargs] at ha hb; subst ha; subst hb
  have hns : d.op ≠ .select := by intro h; rw [h] at hop; simp [selectOps] at hop
  have some_of : ∀ {y j} {s : SV F}, ln (ρ y) j = some s → ∃ v, ρ y = some v :=
    fun h => (ln_some.1 h).imp fun _ h => h.1
  cases hk : (env.const p).isSome with
  | true =>
    rw [hk] at hfirst hxx; subst hfirst; simp at hxx hl hr
    obtain ⟨rfl, rfl⟩ := hl; obtain ⟨rfl, rfl⟩ := hr; subst hxx
    obtain ⟨c', t', f', k, ut, uf, hargs', hbc, hut, huf, hsel, tt, tf, lt, lf, lc⟩ :=
      inv_select (hc.def' hq he rfl)
    simp [hargs'] at hcl ht hf; subst hcl; subst ht; subst hf
    have hn := hshape 1 x (by simp [hargs]) hns
    have hbc' : bc (ρ c') i = some (.b k) ∧
        ((ρ c').map List.length = some 1 ∨ (ρ c').map List.length = some d.ty.n) := by
      by_cases hv : d.op = .vts
      · simp [hv] at hn
        rw [hn] at lc
        have lc : (ρ c').map List.length = some 1 := by rcases lc with h | h <;> exact h
        refine ⟨?_, .inl lc⟩
        obtain ⟨w, hw⟩ := bc_some hbc
        rw [hw] at hbc lc ⊢
        simp at lc
        simpa [bc, lc] using hbc
      · simp [hv] at hn
        rw [hn] at lc
        simp [rhsLane, hv] at hbc
        exact ⟨hbc, lc⟩
    refine ⟨k, hbc'.1, hbc'.2, some_of hp, some_of hut, some_of hp, some_of huf, ?_, ?_⟩
    · rw [hargs]
      cases k
      · exact raw_congr hop rfl (by rw [hq, hsel, huf]; rfl)
      · exact raw_congr hop rfl (by rw [hq, hsel, hut]; rfl)
    · intro hd
      have tv : v.hasTy (env.get x).ty.base = true := by rw [hsel]; cases k <;> simpa
      rw [hargs] at hu
      exact ⟨(raw_kind hop hd tv tt).1 hp hq hut hu, (raw_kind hop hd tv tf).1 hp hq huf hu⟩
  | false =>
    rw [hk] at hfirst hxx; subst hfirst; simp at hxx hl hr
    obtain ⟨rfl, rfl⟩ := hl; obtain ⟨rfl, rfl⟩ := hr; subst hxx
    obtain ⟨c', t', f', k, ut, uf, hargs', hbc, hut, huf, hsel, tt, tf, lt, lf, lc⟩ :=
      inv_select (hc.def' hp he rfl)
    simp [hargs'] at hcl ht hf; subst hcl; subst ht; subst hf
    have hn := hshape 0 x (by simp [hargs]) hns
    simp at hn
    rw [hn] at lc
    refine ⟨k, hbc, lc, some_of hut, some_of hq, some_of huf, some_of hq, ?_, ?_⟩
    · rw [hargs]
      cases k
      · exact raw_congr hop (by rw [hp, hsel, huf]; rfl) rfl
      · exact raw_congr hop (by rw [hp, hsel, hut]; rfl) rfl
    · intro hd
      have tv : u.hasTy (env.get x).ty.base = true := by rw [hsel]; cases k <;> simpa
      rw [hargs] at hu
      exact ⟨(raw_kind hop hd tv tt).2 hq hp hut hu, (raw_kind hop hd tv tf).2 hq hp huf hu⟩

theorem mergeBinaryOpSelect_refines (hf : FoldRight env) (hshape : Shaped env d)
    (hop : d.op ∈ selectOps) (h : mergeBinaryOpSelect env d = .ret new)
    (hdiv : d.op.division = false ∨ new.adds = []) : Refines env d new := by
  simp only [mergeBinaryOpSelect, bind_ret, some?_ret, need_ret, Env.constAt, Inst.arg, at?_ret,
    ret_inj, beq_iff_eq] at h
  obtain ⟨_, _, _, _, x, hx, _, he, _, _, _, _, _, _, _, _, c, hcl, _, _, _, ⟨a, ha, rfl⟩, a', ha', b, hb,
    t, ht, f, hff, _, _, h⟩ := h
  rw [ha] at ha'; injection ha' with ha'; subst ha'
  generalize hfirst : (env.const a).isSome = first at h
  generalize hlp : (if first then (a, t) else (t, b)) = lp at h
  generalize hrp : (if first then (a, f) else (f, b)) = rp at h
  obtain ⟨l1, l2⟩ := lp
  obtain ⟨r1, r2⟩ := rp
  have sel := fun (ρ : Id → Option (Val F)) (i : Nat) (hc : Consistent env ρ) (hi : i < d.ty.n)
      (hu : lane d.op d.ty (d.args.map ρ) i ≠ .ub) =>
    selected hshape hc hi hop hu hx he hcl ht hff ha hb hfirst.symm hlp.symm hrp.symm
  have nany : ∀ {ρ i} , lane d.op d.ty (d.args.map ρ) i ≠ (.ub : R F) →
      raw d.op d.ty (d.args.map ρ) i ≠ .any := by
    intro ρ i hu
    obtain ⟨p, q, _, _, hargs, _⟩ := selectOps_args hop (check_ne_ub hu)
    rw [hargs]; exact selectOps_not_any hop
  dsimp only at h
  split at h
  · -- both folded
    rename_i k k' hk hk'
    simp only [to_ret] at h; subst h
    obtain ⟨n1, s1⟩ := folded_side hf hk
    obtain ⟨n2, s2⟩ := folded_side hf hk'
    apply refines0
    intro ρ hc i hi hu
    obtain ⟨kk, hbc, hlc, e1, e2, e3, e4, hraw, _⟩ := sel ρ i hc hi hu
    obtain ⟨s, hs, hst, hsr⟩ := s1 i hi
    obtain ⟨s', hs', hst', hsr'⟩ := s2 i hi
    have hu' : lane d.op d.ty (d.args.map ρ) i =
        if kk then lane d.op d.ty [ρ l1, ρ l2] i else lane d.op d.ty [ρ r1, ρ r2] i := by
      unfold lane; rw [hraw]; cases kk <;> rfl
    apply select_le hbc hlc n1 n2 hs hs' hst hst' (nany hu)
    show (lane d.op d.ty (d.args.map ρ) i).allows _ _
    rw [hu'] at hu ⊢
    cases kk
    · exact hsr' ρ hc e3 e4 hu
    · exact hsr ρ hc e1 e2 hu
  · rename_i k hk hk'
    simp only [ret_inj] at h; subst h
    have hdiv : d.op.division = false := by simpa using hdiv
    obtain ⟨n1, s1⟩ := folded_side hf hk
    apply refines1
    intro ρ hc i hi hu
    obtain ⟨kk, hbc, hlc, e1, e2, e3, e4, hraw, hk⟩ := sel ρ i hc hi hu
    refine ⟨(hk hdiv).2, fun ν s' hn hs' hall => ?_⟩
    obtain ⟨s, hs, hst, hsr⟩ := s1 i hi
    apply select_le hbc hlc n1 hn hs hs' hst (allows_hasTy hall) (nany hu)
    show (lane d.op d.ty (d.args.map ρ) i).allows _ _
    unfold lane; rw [hraw]
    cases kk
    · exact hall
    · exact hsr ρ hc e1 e2 (hk hdiv).1
  · rename_i k' hk hk'
    simp only [ret_inj] at h; subst h
    have hdiv : d.op.division = false := by simpa using hdiv
    obtain ⟨n2, s2⟩ := folded_side hf hk'
    apply refines1
    intro ρ hc i hi hu
    obtain ⟨kk, hbc, hlc, e1, e2, e3, e4, hraw, hk⟩ := sel ρ i hc hi hu
    refine ⟨(hk hdiv).1, fun ν s hn hs hall => ?_⟩
    obtain ⟨s', hs', hst', hsr'⟩ := s2 i hi
    apply select_le hbc hlc hn n2 hs hs' (allows_hasTy hall) hst' (nany hu)
    show (lane d.op d.ty (d.args.map ρ) i).allows _ _
    unfold lane; rw [hraw]
    cases kk
    · exact hsr' ρ hc e3 e4 (hk hdiv).2
    · exact hall
  · simp only [ret_inj] at h; subst h
    have hdiv : d.op.division = false := by simpa using hdiv
    apply refines2
    intro ρ hc i hi hu
    obtain ⟨kk, hbc, hlc, e1, e2, e3, e4, hraw, hk⟩ := sel ρ i hc hi hu
    refine ⟨(hk hdiv).1, fun ν s hn hs hall => ⟨(hk hdiv).2, fun ν' s' hn' hs' hall' => ?_⟩⟩
    apply select_le hbc hlc hn hn' hs hs' (allows_hasTy hall) (allows_hasTy hall') (nany hu)
    show (lane d.op d.ty (d.args.map ρ) i).allows _ _
    unfold lane; rw [hraw]
    cases kk
    · exact hall'
    · exact hall

end Verif.Rules
