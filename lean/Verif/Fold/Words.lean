import Verif.Fold.Lift

set_option linter.unusedSimpArgs false
set_option linter.unusedVariables false

namespace Verif.Fold

open Spec

/-! ## `mapM` in `Option` -/

theorem mapM_get {α β : Type} {f : α → Option β} : ∀ {l : List α} {rs : List β},
    l.mapM f = some rs → rs.length = l.length ∧
      ∀ (k : Nat) a r, l[k]? = some a → rs[k]? = some r → f a = some r
  | [], rs, h => by
      simp only [List.mapM_nil] at h
      cases h; simp
  | a :: l, rs, h => by
      simp only [List.mapM_cons] at h
      cases hf : f a with
      | none => rw [hf] at h; cases h
      | some b =>
          rw [hf] at h
          cases hm : l.mapM f with
          | none => rw [hm] at h; cases h
          | some bs =>
              rw [hm] at h
              cases h
              obtain ⟨h1, h2⟩ := mapM_get hm
              refine ⟨by simp [h1], ?_⟩
              intro k a' r ha hr
              match k with
              | 0 => cases ha; cases hr; exact hf
              | k + 1 => exact h2 k a' r ha hr

theorem mapM_isSome {α β : Type} {f : α → Option β} : ∀ {l : List α},
    (∀ a ∈ l, (f a).isSome) → (l.mapM f).isSome
  | [], _ => rfl
  | a :: l, h => by
      simp only [List.mapM_cons]
      have h1 := h a (by simp)
      have h2 := mapM_isSome (l := l) (fun b hb => h b (by simp [hb]))
      revert h1 h2
      cases f a with
      | none => simp
      | some b => cases l.mapM f with
        | none => simp
        | some bs => simp

theorem operateWords_evaluated {op : Op} {ws : List (BitVec 32)} {v : BitVec 32}
    (h : operateWords op ws = some v) : op.evaluated = true := by
  match ws with
  | [] => cases h
  | [a] => cases op <;> first | rfl | (simp [operateWords, unaryOperate] at h)
  | [a, b] => cases op <;> first | rfl | (simp [operateWords, binaryOperate] at h)
  | [a, b, c] => cases op <;> first | rfl | (simp [operateWords, ternaryOperate] at h)
  | a :: b :: c :: d :: r => cases h

/-! ## Shapes when evaluation by words is allowed -/

theorem by_shape {i : Instr} (hw : WellTyped i) (hb : i.byScalar = true ∨ i.byVector = true) :
    (elem i.ty).foldable = true ∧
    ∀ o ∈ i.args, Shape i.ty o.ty ∧ (elem o.ty).foldable = true := by
  have hs := hw.2
  rcases hb with hb | hb
  · simp only [Instr.byScalar, Bool.and_eq_true, List.all_eq_true] at hb
    obtain ⟨⟨_, h1⟩, h2⟩ := hb
    match hty : i.ty with
    | .vec .. => rw [hty] at h1; cases h1
    | .scalar t =>
        rw [hty] at h1
        refine ⟨h1, ?_⟩
        intro o ho
        have := h2 o ho
        match hoty : o.ty with
        | .vec .. => rw [hoty] at this; cases this
        | .scalar t' => rw [hoty] at this; exact ⟨trivial, this⟩
  · simp only [Instr.byVector, Bool.and_eq_true, List.all_eq_true] at hb
    obtain ⟨⟨_, h1⟩, h2⟩ := hb
    match hty : i.ty with
    | .scalar .. => rw [hty] at h1; cases h1
    | .vec n t =>
        rw [hty] at h1
        refine ⟨h1, ?_⟩
        intro o ho
        have h3 := h2 o ho
        match hoty : o.ty with
        | .scalar .. => rw [hoty] at h3; cases h3
        | .vec m t' =>
            rw [hoty] at h3
            simp only [shapeRule, hty] at hs
            rcases hs.2.1 o.ty (List.mem_map.mpr ⟨o, ho, rfl⟩) with ⟨t'', h'⟩ | ⟨_, h'⟩
            · rw [hoty] at h'; cases h'
              exact ⟨⟨rfl, hs.1⟩, h3⟩
            · rw [hoty] at h'; cases h'

/-! ## Reading words -/

theorem vectorWord_raw {c : Const} {n k : Nat} {t : STy} {v : Val} {u : SVal} {x : BitVec 32}
    (ht : ConstHasTy c (.vec n t)) (hd : Denotes c v) (hv : HasTy v (.vec n t))
    (hf : t.foldable = true) (hu : v[k]? = some u) (h : vectorWord k c = some x) : x = raw u := by
  have hut := hv.2 u (List.mem_of_getElem? hu)
  match c with
  | .scalar c => cases ht
  | .nullVec n' t' =>
      cases h
      have := scalarWord_raw (hd.2 u (List.mem_of_getElem? hu)) hut hf
      simpa [scalarWord, SConst.words?] using this
  | .vec t' cs =>
      simp only [vectorWord] at h
      split at h
      · rename_i c hc
        split at h
        · rename_i x' hx
          cases h
          have := scalarWord_raw (hd.2 k c u hc hu) hut hf
          simpa [scalarWord, hx] using this
        · cases h
      · cases h

/-- The words of all operands at one component. -/
theorem words_raw {ρ : Nat → Val} {k : Nat} {word : Const → Option (BitVec 32)} :
    ∀ {args : List Operand} {cs : List Const} {ws : List (BitVec 32)},
    (∀ o ∈ args, HasTy (ρ o.id) o.ty ∧ k < (ρ o.id).length ∧
      ∀ c x u, o.const = some c → word c = some x → (ρ o.id)[k]? = some u → x = raw u) →
    allConsts args = some cs → cs.mapM word = some ws →
    ∃ us, (args.map fun o => ρ o.id).mapM (fun v => v[k]?) = some us ∧ ws = us.map raw ∧
      Typed us (args.map fun o => elem o.ty)
  | [], cs, ws, _, ha, hw => by
      simp only [allConsts, List.mapM_nil] at ha
      cases ha
      simp only [List.mapM_nil] at hw
      cases hw
      exact ⟨[], rfl, rfl, trivial⟩
  | o :: args, cs, ws, h, ha, hw => by
      simp only [allConsts, List.mapM_cons] at ha
      cases hc : o.const with
      | none => rw [hc] at ha; cases ha
      | some c =>
          rw [hc] at ha
          cases hm : args.mapM (fun o => o.const) with
          | none => rw [hm] at ha; cases ha
          | some cs' =>
              rw [hm] at ha
              cases ha
              simp only [List.mapM_cons] at hw
              cases hx : word c with
              | none => rw [hx] at hw; cases hw
              | some x =>
                  rw [hx] at hw
                  cases hn : cs'.mapM word with
                  | none => rw [hn] at hw; cases hw
                  | some ws' =>
                      rw [hn] at hw
                      cases hw
                      obtain ⟨h1, h2, h3⟩ := h o (by simp)
                      obtain ⟨us, e1, e2, e3⟩ :=
                        words_raw (args := args) (fun o' ho' => h o' (by simp [ho'])) hm hn
                      have e := List.getElem?_eq_getElem h2
                      refine ⟨(ρ o.id)[k] :: us, ?_, ?_, ?_⟩
                      · simp only [List.map_cons, List.mapM_cons, e, e1]
                        rfl
                      · simp only [List.map_cons, ← e2, ← h3 c x _ hc hx e]
                      · exact ⟨h1.2 _ (List.getElem_mem h2), e3⟩

theorem mapM_comp {i : Instr} {ρ : Nat → Val} {k : Nat}
    (h : ∀ o ∈ i.args, HasTy (ρ o.id) o.ty ∧ Shape i.ty o.ty) (hk : k < dim i.ty) :
    (i.args.map fun o => ρ o.id).mapM (comp k) =
      (i.args.map fun o => ρ o.id).mapM (fun v => v[k]?) := by
  generalize i.args = args at h
  induction args with
  | nil => rfl
  | cons o args ih =>
      obtain ⟨h1, h2⟩ := h o (by simp)
      simp only [List.map_cons, List.mapM_cons, comp_shape h1 h2 hk]
      rw [ih (fun o' ho' => h o' (by simp [ho']))]

/-- Every component is the evaluation of the operands' words. -/
theorem words_final {i : Instr} {ρ : Nat → Val} (hw : WellTyped i) (hc : Consistent i ρ)
    (hb : i.byScalar = true ∨ i.byVector = true) {c : Const} (ho : Outer c i.ty)
    {word : Nat → Const → Option (BitVec 32)} {cs : List Const} (ha : allConsts i.args = some cs)
    (hword : ∀ k, k < dim i.ty → ∀ o ∈ i.args, ∀ c x u, o.const = some c → word k c = some x →
      (ρ o.id)[k]? = some u → x = raw u)
    (h : ∀ (k : Nat) r, (compsOf c)[k]? = some r → ∃ ws v, cs.mapM (word k) = some ws ∧
      operateWords i.op ws = some v ∧ r = mkScalar (elem i.ty) v) : Final i ρ c := by
  obtain ⟨hf, hsh⟩ := by_shape hw hb
  have hlen := outer_length ho
  refine final_of_comps (constHasTy_of_outer ho ?_) hlen ?_
  · intro r hr
    obtain ⟨k, hk⟩ := List.mem_iff_getElem?.mp hr
    obtain ⟨ws, v, _, _, rfl⟩ := h k r hk
    exact (mkScalar_spec hf v).1
  · intro k r hr
    have hkd : k < dim i.ty := by
      rw [← hlen]; exact (List.getElem?_eq_some_iff.mp hr).1
    obtain ⟨ws, v, h1, h2, rfl⟩ := h k r hr
    obtain ⟨_, m2, m3⟩ := mkScalar_spec hf v
    have hall : ∀ o ∈ i.args, HasTy (ρ o.id) o.ty ∧ k < (ρ o.id).length ∧
        ∀ c x u, o.const = some c → word k c = some x → (ρ o.id)[k]? = some u → x = raw u := by
      intro o ho'
      have hv := (hc o ho').1
      refine ⟨hv, ?_, hword k hkd o ho'⟩
      rw [hv.1, shape_dim (hsh o ho').1]; exact hkd
    obtain ⟨us, e1, e2, e3⟩ := words_raw hall ha h1
    subst e2
    obtain ⟨v', g1, g2⟩ := operate_good (operateWords_evaluated h2) hw.1 hf (by
      intro t' ht'
      obtain ⟨o, ho', rfl⟩ := List.mem_map.mp ht'
      exact (hsh o ho').2) e3
    rw [h2] at g1
    cases g1
    refine ⟨_, m2, m3, ?_⟩
    intro us' hus' r hr'
    rw [mapM_comp (fun o ho' => ⟨(hc o ho').1, (hsh o ho').1⟩) hkd, e1] at hus'
    cases hus'
    exact g2 r hr'

/-! ## A missing constant -/

theorem intWord_spec {o : Operand} {v : Val} {x : BitVec 32} {c : Option (BitVec 32)}
    (hd : ∀ c, o.const = some c → Denotes c v) (hv : v = [.int 32 x]) (h : intWord o = some c) :
    ∀ y, c = some y → y = x := by
  subst hv
  rintro y rfl
  unfold intWord at h
  split at h
  · rename_i w s x' hc
    cases h
    obtain ⟨u, hu, hs⟩ := hd _ hc
    cases hu
    obtain ⟨rfl, h⟩ := hs
    simpa [literalWords] using h
  · cases h
  · cases h

theorem boolWord_spec {o : Operand} {v : Val} {x : Bool}
    (hd : ∀ c, o.const = some c → Denotes c v) (hv : v = [.bool x]) :
    ∀ y, boolWord o = some y → y = x := by
  subst hv
  intro y h
  unfold boolWord at h
  split at h
  · rename_i b hc
    cases h
    obtain ⟨u, hu, hs⟩ := hd _ hc
    cases hu
    exact hs
  · cases h

theorem foldable_val {u : SVal} {t : STy} (h : HasSTy u t) (hf : t.foldable = true) :
    (∃ x : BitVec 32, u = .int 32 x) ∨ ∃ b, u = .bool b := by
  match t, u with
  | .bool, .bool b => exact Or.inr ⟨b, rfl⟩
  | .int w s, .int w' x =>
      cases h
      have := foldable32 hf
      subst this
      exact Or.inl ⟨x, rfl⟩
  | .bool, .int .. => cases h
  | .int .., .bool _ => cases h

theorem foldBinaryInteger_not_bool {op : Op} {c0 c1 : Option (BitVec 32)} {v : BitVec 32}
    (h : foldBinaryInteger op c0 c1 = some v) (x y : Bool) : boolBinary op x y = none := by
  cases op <;> first | rfl | (simp [foldBinaryInteger] at h)

theorem foldBinaryBoolean_not_int {op : Op} {c0 c1 : Option Bool} {v : BitVec 32}
    (h : foldBinaryBoolean op c0 c1 = some v) {w w' : Nat} (x : BitVec w) (y : BitVec w') :
    intResult op x y = none ∧ intCompare op x y = none := by
  cases op <;> first | exact ⟨rfl, rfl⟩ | (simp [foldBinaryBoolean] at h)

theorem scalar_val {v : Val} {ty : Ty} {t : STy} (hv : HasTy v ty) (h : ty = .scalar t) :
    ∃ u, v = [u] ∧ HasSTy u t := by
  subst h
  obtain ⟨h1, h2⟩ := hv
  match v, h1 with
  | [u], _ => exact ⟨u, rfl, h2 u (by simp)⟩

/-- With a constant missing, the value does not depend on the unknown operand. -/
theorem missing_final {i : Instr} {ρ : Nat → Val} (hw : WellTyped i) (hc : Consistent i ρ)
    {t : STy} (hty : i.ty = .scalar t) (hb : i.byScalar = true) {v : BitVec 32}
    (h : foldIntegerOp i.op i.args = some (some v)) : Final i ρ (.scalar (mkScalar t v)) := by
  obtain ⟨hf, hsh⟩ := by_shape hw (Or.inl hb)
  rw [hty] at hf
  obtain ⟨m1, m2, m3⟩ := mkScalar_spec hf v
  refine final_of_comps (by rw [hty]; exact m1) (by rw [hty]; rfl) ?_
  intro k r hr
  match k with
  | k + 1 => simp [compsOf] at hr
  | 0 =>
    cases hr
    rw [hty]
    refine ⟨_, m2, m3, ?_⟩
    intro us hus r hr
    match hargs : i.args with
    | [] => rw [hargs] at h; cases h
    | [_] => rw [hargs] at h; cases h
    | _ :: _ :: _ :: _ => rw [hargs] at h; cases h
    | [x, y] =>
      rw [hargs] at h hus
      obtain ⟨vx, cx, _⟩ := hc x (by simp [hargs])
      obtain ⟨vy, cy, _⟩ := hc y (by simp [hargs])
      obtain ⟨sx, fx⟩ := hsh x (by simp [hargs])
      obtain ⟨sy, fy⟩ := hsh y (by simp [hargs])
      rw [hty] at sx sy
      match hxt : x.ty, hyt : y.ty with
      | .vec .., _ => rw [hxt] at sx; cases sx
      | .scalar _, .vec .. => rw [hyt] at sy; cases sy
      | .scalar tx, .scalar ty =>
        obtain ⟨u0, e0, t0⟩ := scalar_val vx hxt
        obtain ⟨u1, e1, t1⟩ := scalar_val vy hyt
        rw [hxt] at fx
        rw [hyt] at fy
        have hus' : us = [u0, u1] := by
          simp only [List.map_cons, List.map_nil, List.mapM_cons, List.mapM_nil, e0, e1, comp] at hus
          cases hus; rfl
        subst hus'
        simp only [foldIntegerOp, Option.bind_eq_bind] at h
        cases hi0 : intWord x with
        | none => rw [hi0] at h; cases h
        | some c0 =>
          cases hi1 : intWord y with
          | none => rw [hi0, hi1] at h; cases h
          | some c1 =>
            rw [hi0, hi1] at h
            simp only [Option.bind_some] at h
            have d0 : ∀ c, x.const = some c → Denotes c (ρ x.id) := fun c hc' => (cx c hc').2
            have d1 : ∀ c, y.const = some c → Denotes c (ρ y.id) := fun c hc' => (cy c hc').2
            rcases foldable_val t0 fx with ⟨x0, rfl⟩ | ⟨x0, rfl⟩ <;>
            rcases foldable_val t1 fy with ⟨x1, rfl⟩ | ⟨x1, rfl⟩
            · -- two integers
              have k0 := intWord_spec d0 e0 hi0
              have k1 := intWord_spec d1 e1 hi1
              split at h
              · rename_i v' hv'
                cases h
                obtain ⟨g1, g2⟩ := foldBinaryInteger_int k0 k1 hv'
                match t with
                | .bool =>
                    have hr' : (intCompare i.op x0 x1).map SVal.bool = some r := hr
                    obtain ⟨b, hb', rfl⟩ := Option.map_eq_some_iff.mp hr'
                    simp only [elem, unraw, g2 b hb']
                | .int w s =>
                    have := foldable32 hf
                    subst this
                    simp only [Spec.scalar, elem, Option.map_eq_some_iff] at hr
                    obtain ⟨n, hn, rfl⟩ := hr
                    simp only [elem, unraw, g1 n hn]
              · simp only [Option.some.injEq] at h
                obtain ⟨g1, g2⟩ := foldBinaryBoolean_not_int h x0 x1
                match t with
                | .bool => simp [Spec.scalar, elem, g2] at hr
                | .int w s => simp [Spec.scalar, elem, g1] at hr
            · match t with
              | .bool => simp [Spec.scalar, elem] at hr
              | .int w s => simp [Spec.scalar, elem] at hr
            · match t with
              | .bool => simp [Spec.scalar, elem] at hr
              | .int w s => simp [Spec.scalar, elem] at hr
            · match t with
              | .int w s => simp [Spec.scalar, elem] at hr
              | .bool =>
                  have hr' : (boolBinary i.op x0 x1).map SVal.bool = some r := hr
                  obtain ⟨b, hb', rfl⟩ := Option.map_eq_some_iff.mp hr'
                  split at h
                  · rename_i v' hv'
                    cases h
                    rw [foldBinaryInteger_not_bool hv'] at hb'
                    cases hb'
                  · simp only [Option.some.injEq] at h
                    have := foldBinaryBoolean_bool (boolWord_spec d0 e0) (boolWord_spec d1 e1) h b hb'
                    simp only [elem, unraw, this]

/-- Evaluation by words. -/
theorem foldByWords_final {i : Instr} {ρ : Nat → Val} (hw : WellTyped i) (hc : Consistent i ρ)
    {c : Const} (h : foldByWords i = some (some c)) : Final i ρ c := by
  unfold foldByWords at h
  split at h
  · rename_i t hty
    split at h
    · rename_i hb
      split at h
      · rename_i cs hcs
        simp only [Option.bind_eq_bind] at h
        cases hv : foldScalars i.op cs with
        | none => rw [hv] at h; cases h
        | some v =>
            rw [hv] at h
            cases h
            obtain ⟨hf, hsh⟩ := by_shape hw (Or.inl hb)
            refine words_final hw hc (Or.inl hb) (by rw [hty]; trivial)
              (word := fun _ => scalarWord) hcs ?_ ?_
            · intro k hk o ho c x u hoc hx hu
              obtain ⟨vo, co, _⟩ := hc o ho
              obtain ⟨s1, s2⟩ := hsh o ho
              rw [hty] at s1
              match hot : o.ty with
              | .vec .. => rw [hot] at s1; cases s1
              | .scalar t' =>
                  obtain ⟨ct, cd⟩ := co c hoc
                  rw [hot] at ct s2 vo
                  obtain ⟨a, rfl, _⟩ := constHasTy_scalar ct
                  obtain ⟨u', hu', hd⟩ := cd
                  rw [hu'] at hu vo
                  rw [hty] at hk
                  have : k = 0 := by simp [dim] at hk; exact hk
                  subst this
                  cases hu
                  have := scalarWord_raw hd (vo.2 _ (by simp)) s2
                  rw [this] at hx
                  cases hx; rfl
            · intro k r hr
              match k with
              | k + 1 => simp [compsOf] at hr
              | 0 =>
                  cases hr
                  simp only [foldScalars, Option.bind_eq_bind] at hv
                  cases hm : cs.mapM scalarWord with
                  | none => rw [hm] at hv; cases hv
                  | some ws =>
                      rw [hm] at hv
                      exact ⟨ws, v, rfl, hv, by rw [hty]; rfl⟩
      · simp only [Option.bind_eq_bind] at h
        cases hv : foldIntegerOp i.op i.args with
        | none => rw [hv] at h; cases h
        | some r =>
            rw [hv] at h
            cases r with
            | none => cases h
            | some v =>
                cases h
                exact missing_final hw hc hty hb hv
    · cases h
  · rename_i n t hty
    split at h
    · rename_i hb
      split at h
      · rename_i cs hcs
        simp only [Option.bind_eq_bind] at h
        cases hv : foldVectors i.op n cs with
        | none => rw [hv] at h; cases h
        | some vs =>
            rw [hv] at h
            cases h
            obtain ⟨hf, hsh⟩ := by_shape hw (Or.inr hb)
            obtain ⟨hl, hk⟩ := mapM_get hv
            refine words_final hw hc (Or.inr hb)
              (by rw [hty]; exact ⟨rfl, by simpa using hl⟩) (word := vectorWord) hcs ?_ ?_
            · intro k hk o ho c x u hoc hx hu
              obtain ⟨vo, co, _⟩ := hc o ho
              obtain ⟨s1, s2⟩ := hsh o ho
              rw [hty] at s1
              match hot : o.ty with
              | .scalar .. => rw [hot] at s1; cases s1
              | .vec m t' =>
                  obtain ⟨ct, cd⟩ := co c hoc
                  rw [hot] at ct s2 vo
                  exact vectorWord_raw ct cd vo s2 hu hx
            · intro k r hr
              simp only [compsOf, List.getElem?_map, Option.map_eq_some_iff] at hr
              obtain ⟨v, hv', rfl⟩ := hr
              have hkn : k < n := by
                have := (List.getElem?_eq_some_iff.mp hv').1
                simp at hl; omega
              have := hk k k v (by rw [List.getElem?_range hkn]) hv'
              simp only [Option.bind_eq_bind] at this
              cases hm : cs.mapM (vectorWord k) with
              | none => rw [hm] at this; cases this
              | some ws =>
                  rw [hm] at this
                  exact ⟨ws, v, rfl, this, by rw [hty]; rfl⟩
      · cases h
    · cases h

end Verif.Fold
