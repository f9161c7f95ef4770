import Verif.LoopDep.Gcd

set_option linter.unusedSimpArgs false
set_option linter.unusedVariables false

/-!
# Coupled subscripts
-/

namespace Verif.LoopDep

open Verif.ScalarEvo (Node Order simplify createNegation createMultiply createAdd
  createSubtraction addAll addChild recLoops loop? onlyRec Plain)
open Verif.ScalarEvo.Spec (Env eval evalSum Supported Affine RecFree count countSum slope slopeSum)
open Verif.LoopDep.Spec

/-- The destination in iteration `x` and the source in iteration `y` meet the constraint. -/
def Sat (x y : Int) : Constraint → Prop
  | .none => True
  | .distance (.const d) _ => y - x = d
  | .line (.const a) (.const b) (.const c) _ => a * x + b * y = c
  | .point (.const p) (.const q) _ => x = p ∧ y = q
  | _ => False

/-! ## Intersection -/

theorem sameFraction_ok {n0 d0 n1 d1 : Int} {b : Bool} (h : sameFraction n0 d0 n1 d1 = .ok b) :
    ∃ g0 g1 : Nat, g0 = Nat.gcd n0.natAbs d0.natAbs ∧ g1 = Nat.gcd n1.natAbs d1.natAbs ∧
      g0 ≠ 0 ∧ g1 ≠ 0 ∧
      (b = true ↔ n0.tdiv g0 = n1.tdiv g1 ∧ d0.tdiv g0 = d1.tdiv g1) := by
  unfold sameFraction at h
  bstep h x0 hx0
  bstep h y0 hy0
  bstep h x1 hx1
  bstep h y1 hy1
  cases abs64Ok hx0
  cases abs64Ok hy0
  cases abs64Ok hx1
  cases abs64Ok hy1
  simp only [Int.natAbs_natCast, stein_gcd] at h
  bstep h a0 ha0
  bstep h b0 hb0
  bstep h a1 ha1
  bstep h b1 hb1
  obtain ⟨hg0, ha0⟩ := div64Ok ha0
  obtain ⟨_, hb0⟩ := div64Ok hb0
  obtain ⟨hg1, ha1⟩ := div64Ok ha1
  obtain ⟨_, hb1⟩ := div64Ok hb1
  refine ⟨_, _, rfl, rfl, by simpa using hg0, by simpa using hg1, ?_⟩
  rw [← pureOk h]
  simp [ha0, ha1, hb0, hb1]

theorem scaled_div {g : Nat} (hg : g ≠ 0) (z w : Int) :
    (g * z : Int).tdiv (Nat.gcd (g * z : Int).natAbs (g * w : Int).natAbs) =
      z.tdiv (Nat.gcd z.natAbs w.natAbs) ∧
    (g * w : Int).tdiv (Nat.gcd (g * z : Int).natAbs (g * w : Int).natAbs) =
      w.tdiv (Nat.gcd z.natAbs w.natAbs) := by
  have hg' : (g : Int) ≠ 0 := by omega
  rw [Int.natAbs_mul, Int.natAbs_mul, Int.natAbs_natCast, Nat.gcd_mul_left, Int.natCast_mul]
  exact ⟨tdiv_scale hg' _ _, tdiv_scale hg' _ _⟩

/-- Proportional fractions are found to be the same. -/
theorem sameFraction_scaled {g0 g1 : Nat} (h0 : g0 ≠ 0) (h1 : g1 ≠ 0) {z w : Int} {b : Bool}
    (h : sameFraction (g0 * z) (g0 * w) (g1 * z) (g1 * w) = .ok b) : b = true := by
  obtain ⟨_, _, rfl, rfl, _, _, hb⟩ := sameFraction_ok h
  refine hb.2 ⟨?_, ?_⟩
  · rw [(scaled_div h0 z w).1, (scaled_div h1 z w).1]
  · rw [(scaled_div h0 z w).2, (scaled_div h1 z w).2]

theorem gcd_tdiv_left (a b : Int) :
    a = (Nat.gcd a.natAbs b.natAbs : Int) * a.tdiv (Nat.gcd a.natAbs b.natAbs) :=
  (Int.mul_tdiv_cancel' (Int.ofNat_dvd_left.2 (Nat.gcd_dvd_left _ _))).symm

theorem gcd_tdiv_right (a b : Int) :
    b = (Nat.gcd a.natAbs b.natAbs : Int) * b.tdiv (Nat.gcd a.natAbs b.natAbs) :=
  (Int.mul_tdiv_cancel' (Int.ofNat_dvd_left.2 (Nat.gcd_dvd_right _ _))).symm

theorem meet_sound {a0 b0 c0 a1 b1 c1 lo up : Int} {l : Nat} {x y : Int} {k : Constraint}
    (h0 : a0 * x + b0 * y = c0) (h1 : a1 * x + b1 * y = c1) (hx : lo ≤ x ∧ x ≤ up)
    (hy : lo ≤ y ∧ y ≤ up) (h : meet a0 b0 c0 a1 b1 c1 lo up l = .ok k) : Sat x y k := by
  unfold meet at h
  bstep h p1 hp1
  cases i64Ok hp1
  bstep h p2 hp2
  cases i64Ok hp2
  bstep h u hu
  cases i64Ok hu
  bstep h p3 hp3
  cases i64Ok hp3
  bstep h p4 hp4
  cases i64Ok hp4
  bstep h dn hdn
  cases i64Ok hdn
  bstep h q hq
  obtain ⟨hne, hq⟩ := div64Ok hq
  have hu : b1 * c0 - b0 * c1 = (b1 * a0 - b0 * a1) * x := by
    subst h0 h1
    rw [Int.sub_mul, Int.mul_add, Int.mul_add, ← Int.mul_assoc, ← Int.mul_assoc, ← Int.mul_assoc,
      ← Int.mul_assoc, Int.mul_comm b1 b0]
    omega
  rw [hu, tdiv_exact hne] at hq
  subst hq
  bstep h r hr
  have hr' : r.2.2 ≠ 0 ∧ r.2.1 = r.2.2 * y ∧ r.1 = y := by
    split at hr
    · rename_i hb
      bstep hr t1 ht1
      cases i64Ok ht1
      bstep hr t2 ht2
      cases i64Ok ht2
      bstep hr t3 ht3
      obtain ⟨_, ht3⟩ := div64Ok ht3
      have : c1 - a1 * q = b1 * y := by omega
      rw [this, tdiv_exact hb] at ht3
      rw [← pureOk hr]
      exact ⟨hb, this, ht3⟩
    · split at hr
      · rename_i hb
        bstep hr t1 ht1
        cases i64Ok ht1
        bstep hr t2 ht2
        cases i64Ok ht2
        bstep hr t3 ht3
        obtain ⟨_, ht3⟩ := div64Ok ht3
        have : c0 - a0 * q = b0 * y := by omega
        rw [this, tdiv_exact hb] at ht3
        rw [← pureOk hr]
        exact ⟨hb, this, ht3⟩
      · rename_i hb1 hb0
        exfalso
        apply hne
        have e1 : b1 = 0 := by simpa using hb1
        have e0 : b0 = 0 := by simpa using hb0
        simp [e1, e0]
  obtain ⟨y', arg, b⟩ := r
  simp only at hr'
  obtain ⟨hb, rfl, rfl⟩ := hr'
  simp only at h
  bstep h m1 hm1
  have hm1 := (mod64Ok hm1).2
  rw [hu, tmod_exact] at hm1
  subst hm1
  simp only [if_true] at h
  bstep h m2 hm2
  have hm2 := (mod64Ok hm2).2
  rw [tmod_exact] at hm2
  subst hm2
  simp only [if_true] at h
  rw [if_pos (by simp [hx, hy])] at h
  rw [← pureOk h]
  exact ⟨rfl, rfl⟩

theorem meetLines_sound {k0 k : Constraint} {a0 b0 c0 a1 b1 c1 : Int} {u : Node} {x y : Int}
    (hk : Sat x y k0) (h0 : a0 * x + b0 * y = c0) (h1 : a1 * x + b1 * y = c1)
    (hx : 0 ≤ x) (hy : 0 ≤ y) (hu : ∀ v, u = .const v → x ≤ v ∧ y ≤ v)
    (h : meetLines k0 a0 b0 c0 a1 b1 c1 (some (.const 0)) (some u) = .ok k) : Sat x y k := by
  unfold meetLines at h
  bstep h sf hsf
  split at h
  · rename_i hsame
    subst hsame
    obtain ⟨g0, g1, hg0, hg1, hz0, hz1, hb⟩ := sameFraction_ok hsf
    obtain ⟨ha, hb⟩ := hb.1 rfl
    have ea0 := gcd_tdiv_left a0 b0
    have eb0 := gcd_tdiv_right a0 b0
    have ea1 := gcd_tdiv_left a1 b1
    have eb1 := gcd_tdiv_right a1 b1
    rw [← hg0] at ea0 eb0
    rw [← hg1] at ea1 eb1
    rw [← ha] at ea1
    rw [← hb] at eb1
    generalize a0.tdiv (g0 : Int) = A at ea0 ea1
    generalize b0.tdiv (g0 : Int) = B at eb0 eb1
    have ec0 : c0 = g0 * (A * x + B * y) := by
      rw [← h0, ea0, eb0, Int.mul_add, Int.mul_assoc, Int.mul_assoc]
    have ec1 : c1 = g1 * (A * x + B * y) := by
      rw [← h1, ea1, eb1, Int.mul_add, Int.mul_assoc, Int.mul_assoc]
    split at h
    · bstep h r hr
      rw [ec0, ec1, ea0, ea1] at hr
      cases sameFraction_scaled hz0 hz1 hr
      simp only [if_true] at h
      rw [← pureOk h]; exact hk
    · bstep h r hr
      rw [ec0, ec1, eb0, eb1] at hr
      cases sameFraction_scaled hz0 hz1 hr
      simp only [if_true] at h
      rw [← pureOk h]; exact hk
  · bstep h up hup
    cases okOk hup
    split at h
    · rw [← pureOk h]; trivial
    · rename_i uv huv
      bstep h lo hlo
      cases okOk hlo
      simp only [asConst] at h
      have := hu uv (asConst_some huv)
      exact meet_sound h0 h1 ⟨hx, this.1⟩ ⟨hy, this.2⟩ h

theorem meetPoint_sound {a b c : Int} {p q : Int} {l : Nat} {x y : Int} {k : Constraint}
    (hl : a * x + b * y = c) (hp : x = p ∧ y = q)
    (h : meetPoint (.point (.const p) (.const q) l) (.const p) (.const q) (.const a) (.const b)
      (.const c) = .ok k) : Sat x y k := by
  unfold meetPoint at h
  simp only [asConst] at h
  bstep h t1 ht1
  cases i64Ok ht1
  bstep h t2 ht2
  cases i64Ok ht2
  bstep h t3 ht3
  cases i64Ok ht3
  obtain ⟨rfl, rfl⟩ := hp
  rw [if_pos hl] at h
  rw [← pureOk h]
  exact ⟨rfl, rfl⟩

theorem asLine_sound {c : Ctx} {k : Constraint} {x y : Int} (hk : Sat x y k)
    {r : Option (Node × Node × Node)} (h : c.asLine k = .ok r) :
    (∃ d l, k = .distance (.const d) l ∧ r = some (.const 1, .const (-1), .const (-d))) ∨
    (∃ a b c l, k = .line (.const a) (.const b) (.const c) l ∧
      r = some (.const a, .const b, .const c)) ∨ k = .none ∨
    ∃ p q l, k = .point (.const p) (.const q) l := by
  unfold Sat at hk
  split at hk
  · exact .inr (.inr (.inl rfl))
  · rename_i d l
    unfold Ctx.asLine at h
    simp only at h
    bstep h n hn
    cases negConst (scOk hn)
    bstep h m hm
    cases simpConst hm
    exact .inl ⟨d, l, rfl, (pureOk h).symm⟩
  · rename_i a b c' l
    unfold Ctx.asLine at h
    exact .inr (.inl ⟨a, b, c', l, rfl, (okOk h).symm⟩)
  · exact .inr (.inr (.inr ⟨_, _, _, rfl⟩))
  · exact hk.elim

theorem intersect_sound {c : Ctx} {k0 k1 : Constraint} {u : Node} {x y : Int}
    (h0 : Sat x y k0) (h1 : Sat x y k1) (hx : 0 ≤ x) (hy : 0 ≤ y)
    (hu : ∀ v, u = .const v → x ≤ v ∧ y ≤ v) {r : Option Constraint}
    (h : c.intersect k0 k1 (some (.const 0)) (some u) = .ok r) : ∃ k, r = some k ∧ Sat x y k := by
  have line1 : ∀ {d : Int}, y - x = d → (1 : Int) * x + (-1) * y = -d := by intro d hd; omega
  unfold Ctx.intersect at h
  split at h
  · exact ⟨k1, (okOk h).symm, h1⟩
  · exact ⟨_, (okOk h).symm, h0⟩
  · rename_i d0 l0 d1 l1
    rw [← okOk h]
    refine ⟨_, rfl, ?_⟩
    have e0 : ∃ v, d0 = .const v ∧ y - x = v := by
      cases d0 <;> simp [Sat] at h0; exact ⟨_, rfl, h0⟩
    have e1 : ∃ v, d1 = .const v ∧ y - x = v := by
      cases d1 <;> simp [Sat] at h1; exact ⟨_, rfl, h1⟩
    obtain ⟨v, rfl, hv⟩ := e0
    obtain ⟨w, rfl, hw⟩ := e1
    rw [if_pos (by rw [← hv, ← hw])]
    exact h0
  · rename_i x0 y0 l0 x1 y1 l1
    rw [← okOk h]
    refine ⟨_, rfl, ?_⟩
    have e0 : ∃ p q, x0 = .const p ∧ y0 = .const q ∧ x = p ∧ y = q := by
      cases x0 <;> simp [Sat] at h0
      cases y0 <;> simp [Sat] at h0
      exact ⟨_, _, rfl, rfl, h0⟩
    have e1 : ∃ p q, x1 = .const p ∧ y1 = .const q ∧ x = p ∧ y = q := by
      cases x1 <;> simp [Sat] at h1
      cases y1 <;> simp [Sat] at h1
      exact ⟨_, _, rfl, rfl, h1⟩
    obtain ⟨p, q, rfl, rfl, hp, hq⟩ := e0
    obtain ⟨p', q', rfl, rfl, hp', hq'⟩ := e1
    subst hp hq hp' hq'
    simp only [decide_true, Bool.and_self, if_true]
    exact ⟨rfl, rfl⟩
  · rename_i x0 y0 l0 hn hnp
    have e0 : ∃ p q, x0 = .const p ∧ y0 = .const q ∧ x = p ∧ y = q := by
      cases x0 <;> simp [Sat] at h0
      cases y0 <;> simp [Sat] at h0
      exact ⟨_, _, rfl, rfl, h0⟩
    obtain ⟨p, q, rfl, rfl, hpq⟩ := e0
    bstep h al hal
    rcases asLine_sound h1 hal with ⟨d, l, rfl, rfl⟩ | ⟨a, b, c', l, rfl, rfl⟩ | rfl | ⟨_, _, _, rfl⟩
    · simp only at h
      bstep h k hk
      rw [← pureOk h]
      exact ⟨k, rfl, meetPoint_sound (line1 h1) hpq hk⟩
    · simp only at h
      bstep h k hk
      rw [← pureOk h]
      exact ⟨k, rfl, meetPoint_sound h1 hpq hk⟩
    · exact (hn rfl).elim
    · exact (hnp _ _ _ rfl).elim
  · rename_i x0 y0 l0 hn hnp
    have e0 : ∃ p q, x0 = .const p ∧ y0 = .const q ∧ x = p ∧ y = q := by
      cases x0 <;> simp [Sat] at h1
      cases y0 <;> simp [Sat] at h1
      exact ⟨_, _, rfl, rfl, h1⟩
    obtain ⟨p, q, rfl, rfl, hpq⟩ := e0
    bstep h al hal
    rcases asLine_sound h0 hal with ⟨d, l, rfl, rfl⟩ | ⟨a, b, c', l, rfl, rfl⟩ | rfl | ⟨_, _, _, rfl⟩
    · simp only at h
      bstep h k hk
      rw [← pureOk h]
      exact ⟨k, rfl, meetPoint_sound (line1 h0) hpq hk⟩
    · simp only at h
      bstep h k hk
      rw [← pureOk h]
      exact ⟨k, rfl, meetPoint_sound h0 hpq hk⟩
    · exact (hn rfl).elim
    · exact (hnp _ _ _ rfl).elim
  · rename_i hn0 hp0 hn1 hp1 hdd hpp
    bstep h al0 hal0
    bstep h al1 hal1
    have line : ∀ {k : Constraint} {al}, Sat x y k → c.asLine k = .ok al → k ≠ .none →
        (∀ p q l, k ≠ .point p q l) → ∃ a b c' : Int, al = some (.const a, .const b, .const c') ∧
          a * x + b * y = c' := by
      intro k al hs hal hn hp
      rcases asLine_sound hs hal with ⟨d, l, rfl, rfl⟩ | ⟨a, b, c', l, rfl, rfl⟩ | rfl | ⟨_, _, _, rfl⟩
      · exact ⟨1, -1, -d, rfl, line1 hs⟩
      · exact ⟨a, b, c', rfl, hs⟩
      · exact (hn rfl).elim
      · exact (hp _ _ _ rfl).elim
    obtain ⟨a0, b0, c0, rfl, l0⟩ := line h0 hal0 (by rintro rfl; exact hn0 rfl)
      (by rintro _ _ _ rfl; exact hp0 _ _ _ rfl)
    obtain ⟨a1, b1, c1, rfl, l1⟩ := line h1 hal1 (by rintro rfl; exact hn1 rfl)
      (by rintro _ _ _ rfl; exact hp1 _ _ _ rfl)
    simp only [asConst] at h
    bstep h k hk
    rw [← pureOk h]
    exact ⟨k, rfl, meetLines_sound h0 l0 l1 hx hy hu hk⟩

/-! ## The constraints of the pairs -/

theorem lineOf_sound {c : Ctx} {s d : Node} {l : Nat} {ls : List Nat} (hs : Norm ls s)
    (hd : Norm ls d) (hl : loopForPair s d = some l) {e1 e2 : Env} (heq : eval e1 s = eval e2 d)
    {k : Constraint} (h : c.lineOf s d l = .ok k) : Sat (e2.iteration l) (e1.iteration l) k := by
  obtain ⟨hin, hsh⟩ := siv_shape hs hd hl
  have hc1 : ∀ o k : Int, countLoops (.recur l (.const o) (.const k)) ≠ 0 := by
    intro o k
    simp [countLoops, loopsOf, collect, Node.recurrents, loopOf, toSet, insertNew]
  have hc0 : ∀ v : Int, countLoops (.const v) = 0 := fun _ => rfl
  unfold Ctx.lineOf at h
  rcases hsh with ⟨f, o, k, hk, rfl, rfl⟩ | ⟨f, o, k, hk, rfl, rfl⟩ |
    ⟨o1, k1, o2, k2, hk1, hk2, rfl, rfl⟩
  · simp only [hc1, hc0, ne_eq, not_true, not_false_eq_true, if_true, if_false, asRecur, deref] at h
    bstep h p hp
    bstep hp q hq
    cases okOk hq
    bstep hp n hn
    cases negConst (scOk hn)
    cases pureOk hp
    bstep h p2 hp2
    bstep hp2 n2 hn2
    cases addConst (scOk hn2)
    cases pureOk hp2
    simp only at h
    bstep h ra hra
    cases simpConst hra
    bstep h rb hrb
    cases simpConst hrb
    bstep h rc hrc
    cases simpConst hrc
    rw [← pureOk h]
    simp only [eval] at heq
    simp only [Sat]; omega
  · simp only [hc1, hc0, ne_eq, not_true, not_false_eq_true, if_true, if_false, asRecur, deref] at h
    bstep h p hp
    bstep hp n hn
    cases negConst (scOk hn)
    cases pureOk hp
    bstep h p2 hp2
    bstep hp2 q hq
    cases okOk hq
    bstep hp2 n1 hn1
    cases negConst (scOk hn1)
    bstep hp2 n2 hn2
    cases addConst (scOk hn2)
    cases pureOk hp2
    simp only at h
    bstep h ra hra
    cases simpConst hra
    bstep h rb hrb
    cases simpConst hrb
    bstep h rc hrc
    cases simpConst hrc
    rw [← pureOk h]
    simp only [eval] at heq
    simp only [Sat, Int.neg_mul]; omega
  · simp only [hc1, ne_eq, not_false_eq_true, if_true, asRecur, deref] at h
    bstep h p hp
    bstep hp q hq
    cases okOk hq
    bstep hp n hn
    cases negConst (scOk hn)
    cases pureOk hp
    bstep h p2 hp2
    bstep hp2 q hq
    cases okOk hq
    bstep hp2 n1 hn1
    cases negConst (scOk hn1)
    bstep hp2 n2 hn2
    cases addConst (scOk hn2)
    cases pureOk hp2
    simp only at h
    bstep h ra hra
    cases simpConst hra
    bstep h rb hrb
    cases simpConst hrb
    bstep h rc hrc
    cases simpConst hrc
    rw [← pureOk h]
    simp only [eval] at heq
    simp only [Sat, Int.neg_mul]; omega

theorem fresh_true (t1 t2 : Int) (trips : Option Int) : EntryTrue {} t1 t2 trips :=
  ⟨by simp, by simp, by simp, by simp, by simp, by simp, by simp, by simp⟩

/-- A pair of subscripts of a coupled group, which are equal in the iterations `e1` and `e2`. -/
structure GoodPair (c : Ctx) (e1 e2 : Env) (p : Node × Node) : Prop where
  left : Norm c.loops p.1
  right : Norm c.loops p.2
  one : ∃ l, loopForPair p.1 p.2 = some l
  equal : eval e1 p.1 = eval e2 p.2
  noHalf : ¬ MeetHalfway p.1 p.2

theorem testAll_sound {c : Ctx} {loops : Nat → Loop} (hS : Setting c loops) {e1 e2 : Env}
    (he1 : Executes c.loops loops e1) (he2 : Executes c.loops loops e2) :
    ∀ {ps : List (Node × Node)} {vs : List Verdict}, (∀ p ∈ ps, GoodPair c e1 e2 p) →
      c.testAll ps = .ok vs →
      vs.any (·.1) = false ∧ ∀ q ∈ ps.zip vs, q.1 ∈ ps ∧ ∀ l, loopForPair q.1.1 q.1.2 = some l →
        ∀ x, q.2.2 = some x → EntryTrue x (e1.iteration l) (e2.iteration l) (c.info l).trips
  | [], vs, _, h => by unfold Ctx.testAll at h; rw [← okOk h]; simp
  | (s, d) :: ps, vs, hp, h => by
    unfold Ctx.testAll at h
    bstep h v hv
    bstep h vs' hvs'
    cases pureOk h
    obtain ⟨i1, i2⟩ := testAll_sound hS he1 he2 (fun p hp' => hp p (by simp [hp'])) hvs'
    have hg := hp (s, d) (by simp)
    obtain ⟨l, hl⟩ := hg.one
    obtain ⟨j1, j2⟩ := siv_sound hS hg.left hg.right hl he1 he2 hg.equal hv
    have j2 := j2 hg.noHalf
    refine ⟨by simp [j1, i1], fun q hq => ?_⟩
    simp only [List.zip_cons_cons, List.mem_cons] at hq
    rcases hq with rfl | hq
    · refine ⟨by simp, fun l' hl' x hx => ?_⟩
      simp only at hl' hx hl
      rw [hl] at hl'
      cases hl'
      obtain ⟨x0, hx0, hk⟩ := j2 x hx
      apply hk
      have hin := (siv_shape hg.left hg.right hl).1
      unfold Ctx.entryFor at hx0
      simp only [hl, hin, if_true] at hx0
      rw [List.getElem?_replicate, if_pos (List.idxOf_lt_length_of_mem hin)] at hx0
      cases hx0
      exact fresh_true _ _ _
    · obtain ⟨k1, k2⟩ := i2 q hq
      exact ⟨by simp [k1], k2⟩

/-- The constraint at each index is met by the iterations of its loop. -/
def AllSat (c : Ctx) (e1 e2 : Env) (ks : List Constraint) : Prop :=
  ∀ (i l : Nat) (k : Constraint), c.loops[i]? = some l → ks[i]? = some k →
    Sat (e2.iteration l) (e1.iteration l) k

theorem constraintsOf_sound {c : Ctx} {e1 e2 : Env} :
    ∀ {qs : List ((Node × Node) × Verdict)} {ks : List (Constraint × Nat)},
      (∀ q ∈ qs, GoodPair c e1 e2 q.1) →
      (∀ q ∈ qs, ∀ l, loopForPair q.1.1 q.1.2 = some l →
        ∀ x, q.2.2 = some x → EntryTrue x (e1.iteration l) (e2.iteration l) (c.info l).trips) →
      c.constraintsOf qs = .ok ks →
      ∀ k ∈ ks, ∃ l, c.loops[k.2]? = some l ∧ Sat (e2.iteration l) (e1.iteration l) k.1
  | [], ks, _, _, h => by unfold Ctx.constraintsOf at h; rw [← okOk h]; simp
  | ((s, d), v) :: qs, ks, hg, ht, h => by
    unfold Ctx.constraintsOf at h
    bstep h k hk
    bstep h ks' hks'
    cases pureOk h
    have ih := constraintsOf_sound (fun q hq => hg q (by simp [hq])) (fun q hq => ht q (by simp [hq]))
      hks'
    intro k' hk'
    rcases List.mem_cons.1 hk' with rfl | hk'
    · have hp := hg ((s, d), v) (by simp)
      have hx := ht ((s, d), v) (by simp)
      simp only at hp hx
      unfold Ctx.constraintOf at hk
      bstep hk l hl
      have hl := derefOk hl
      have hin := (siv_shape hp.left hp.right hl).1
      have hidx : c.loops[c.loops.idxOf l]? = some l := by
        rw [List.getElem?_eq_getElem (List.idxOf_lt_length_of_mem hin), List.getElem_idxOf]
      simp only at hk
      split at hk
      · cases hk
      · rename_i en hen
        have hx := hx l hl en hen
        split at hk
        · rename_i hinfo
          rw [← pureOk hk]
          exact ⟨l, hidx, hx.distance hinfo⟩
        · bstep hk ln hln
          rw [← pureOk hk]
          exact ⟨l, hidx, lineOf_sound hp.left hp.right hl hp.equal hln⟩
    · exact ih k' hk'

theorem intersectAll_sound {c : Ctx} {loops : Nat → Loop} (hS : Setting c loops) {e1 e2 : Env}
    (he1 : Executes c.loops loops e1) (he2 : Executes c.loops loops e2) :
    ∀ {ks : List (Constraint × Nat)} {cur out : List (Option Constraint)},
      (∀ k ∈ ks, ∃ l, c.loops[k.2]? = some l ∧ Sat (e2.iteration l) (e1.iteration l) k.1) →
      (∀ (i : Nat) k, cur[i]? = some k → ∃ k', k = some k' ∧ ∀ l, c.loops[i]? = some l →
        Sat (e2.iteration l) (e1.iteration l) k') →
      c.intersectAll cur ks = .ok out →
      out.length = cur.length ∧ ∀ (i : Nat) k, out[i]? = some k → ∃ k', k = some k' ∧
        ∀ l, c.loops[i]? = some l → Sat (e2.iteration l) (e1.iteration l) k'
  | [], cur, out, _, hc, h => by
    unfold Ctx.intersectAll at h; cases okOk h; exact ⟨rfl, hc⟩
  | (k, i) :: ks, cur, out, hk, hc, h => by
    unfold Ctx.intersectAll at h
    obtain ⟨l, hl, hsat⟩ := hk (k, i) (by simp)
    simp only at hl hsat
    rw [hl] at h
    simp only at h
    bstep h l' hl'
    cases okOk hl'
    bstep h old hold
    split at hold
    case h_2 => cases hold
    rename_i oc hoc
    have hold := derefOk hold
    subst hold
    obtain ⟨k', hk', hs'⟩ := hc i _ hoc
    cases hk'
    bstep h lo hlo
    bstep h up hup
    bstep h new hnew
    have hin : l ∈ c.loops := List.mem_of_getElem? hl
    cases lowerBound_zero hS hin hlo
    obtain ⟨u, rfl, _, hu⟩ := upperBound_value hS hin hup
    have hu1 := hu e1 (he1 l hin)
    have hu2 := hu e2 (he2 l hin)
    obtain ⟨kn, rfl, hkn⟩ := intersect_sound (hs' l hl) hsat hu2.1 hu1.1
      (by rintro v rfl; simp only [eval] at hu1 hu2; exact ⟨hu2.2, hu1.2⟩) hnew
    obtain ⟨r1, r2⟩ := intersectAll_sound hS he1 he2 (fun k hk' => hk k (by simp [hk'])) (by
      intro j kj hj
      rw [List.getElem?_set] at hj
      split at hj
      · rename_i hij
        subst hij
        split at hj
        · cases hj
          refine ⟨kn, rfl, fun l' hl' => ?_⟩
          rw [hl] at hl'
          cases hl'
          exact hkn
        · cases hj
      · exact hc j kj hj) h
    exact ⟨by rw [r1, List.length_set], r2⟩

theorem findEmpty_sat : ∀ {ks : List (Option Constraint)} {b : Bool},
    (∀ k ∈ ks, ∃ k', k = some k' ∧ k' ≠ .empty) → findEmpty ks = .ok b → b = false
  | [], b, _, h => by unfold findEmpty at h; exact (okOk h).symm
  | k :: ks, b, hk, h => by
    obtain ⟨k', rfl, hne⟩ := hk k (by simp)
    cases k' with
    | empty => exact (hne rfl).elim
    | _ =>
      simp only [findEmpty] at h
      exact findEmpty_sat (fun k hk' => hk k (by simp [hk'])) h

theorem filterMap_some : ∀ {ks : List (Option Constraint)},
    (∀ k ∈ ks, ∃ k', k = some k') → (ks.filterMap id).map some = ks
  | [], _ => rfl
  | k :: ks, hk => by
    obtain ⟨k', rfl⟩ := hk k (by simp)
    have ih := filterMap_some (ks := ks) (fun k hk' => hk k (by simp [hk']))
    simpa using ih

theorem sat_ne_empty {x y : Int} {k : Constraint} (h : Sat x y k) : k ≠ .empty := by
  rintro rfl; exact h

/-- The loop of the delta test on a group without pairs of several loops. -/
theorem deltaLoop_sound {c : Ctx} {loops : Nat → Loop} (hS : Setting c loops) {e1 e2 : Env}
    (he1 : Executes c.loops loops e1) (he2 : Executes c.loops loops e2) {fuel : Nat}
    {siv : List (Node × Node)} (hp : ∀ p ∈ siv, GoodPair c e1 e2 p) {r : DeltaOut}
    (h : c.deltaLoop fuel (List.replicate c.loops.length .none) [] siv [] = .ok r) :
    ∃ ks ap, r = some (ks, ap, []) ∧ AllSat c e1 e2 ks := by
  have last : ∀ fuel ks ap {r : DeltaOut}, c.deltaLoop fuel ks ap [] [] = .ok r →
      r = some (ks, ap, []) := by
    intro fuel ks ap r h
    cases fuel with
    | zero => cases h
    | succ fuel => unfold Ctx.deltaLoop at h; exact (okOk h).symm
  cases fuel with
  | zero => cases h
  | succ fuel =>
    unfold Ctx.deltaLoop at h
    split at h
    · refine ⟨_, _, (okOk h).symm, ?_⟩
      intro i l k _ hk
      rw [List.getElem?_replicate] at hk
      split at hk
      · cases hk; trivial
      · cases hk
    · bstep h vs hvs
      obtain ⟨t1, t2⟩ := testAll_sound hS he1 he2 hp hvs
      simp only [t1, Bool.false_eq_true, if_false] at h
      bstep h new hnew
      have hnew := constraintsOf_sound (fun q hq => hp _ (t2 q hq).1) (fun q hq => (t2 q hq).2) hnew
      bstep h met hmet
      obtain ⟨m1, m2⟩ := intersectAll_sound hS he1 he2 hnew (by
        intro i k hk
        rw [List.getElem?_map, List.getElem?_replicate] at hk
        split at hk
        · cases hk; exact ⟨_, rfl, fun _ _ => trivial⟩
        · cases hk) hmet
      have hlen : met.length = c.loops.length := by simp [m1]
      have hne : ∀ k ∈ met, ∃ k', k = some k' ∧ k' ≠ .empty := by
        intro k hk
        obtain ⟨i, hi⟩ := List.mem_iff_getElem?.1 hk
        obtain ⟨k', rfl, hs⟩ := m2 i k hi
        have hlt : i < met.length := by
          rcases Nat.lt_or_ge i met.length with h | h
          · exact h
          · rw [List.getElem?_eq_none h] at hi; cases hi
        exact ⟨k', rfl, sat_ne_empty (hs _ (List.getElem?_eq_getElem (hlen ▸ hlt)))⟩
      bstep h fe hfe
      cases findEmpty_sat hne hfe
      simp only [Bool.false_eq_true, if_false] at h
      have hsat : AllSat c e1 e2 (met.filterMap id) := by
        intro i l k hl hk
        have hm : met[i]? = some (some k) := by
          rw [← filterMap_some (fun k hk => (hne k hk).imp fun _ h => h.1), List.getElem?_map, hk]; rfl
        obtain ⟨k', hk', hs⟩ := m2 i _ hm
        cases hk'
        exact hs l hl
      bstep h sm hsm
      split at h
      · exact ⟨_, _, last _ _ _ h, hsat⟩
      · unfold Ctx.propagateInto at h
        bstep h pi hpi
        cases okOk hpi
        simp only [sortOut] at h
        exact ⟨_, _, last _ _ _ h, hsat⟩

/-! ## The distance vector -/

/-- All entries are true. -/
def VecTrue (c : Ctx) (e1 e2 : Env) (v : List Entry) : Prop :=
  ∀ (i l : Nat) (x : Entry), c.loops[i]? = some l → v[i]? = some x →
    EntryTrue x (e1.iteration l) (e2.iteration l) (c.info l).trips

theorem recordConstraint_true {k : Constraint} {x : Entry} {t1 t2 : Int} {trips : Option Int}
    (hk : Sat t2 t1 k) (hx : EntryTrue x t1 t2 trips) :
    EntryTrue (recordConstraint k x) t1 t2 trips := by
  unfold recordConstraint
  split
  · rename_i d l
    have hd : t1 - t2 = d := hk
    refine atDistance_true x hd ?_ ?_ ?_ ?_ hx
    · intro h; split at h
      · cases h
      · split at h
        · cases h
        · omega
    · intro h; split at h
      · assumption
      · split at h <;> cases h
    · intro h; split at h
      · cases h
      · split at h
        · assumption
        · cases h
    · split
      · decide
      · split <;> decide
  · rename_i p q l
    exact ⟨by simp, by simp, by simp, by simp, by simp, fun _ => hk, by simp, by simp⟩
  · exact hx

theorem recordAll_get (ap : List Nat) : ∀ (ks : List Constraint) (v : List Entry) (n i : Nat)
    (x : Entry), (recordAll ap n ks v)[i]? = some x →
    ∃ y, v[i]? = some y ∧ (x = y ∨ ∃ k, ks[i]? = some k ∧ x = recordConstraint k y)
  | [], v, n, i, x, h => by
    unfold recordAll at h
    exact ⟨x, h, .inl rfl⟩
  | k :: ks, [], n, i, x, h => by simp [recordAll] at h
  | k :: ks, e :: v, n, i, x, h => by
    simp only [recordAll] at h
    cases i with
    | zero =>
      simp at h
      subst h
      refine ⟨e, rfl, ?_⟩
      split
      · exact .inr ⟨k, rfl, rfl⟩
      · exact .inl rfl
    | succ i =>
      simp only [List.getElem?_cons_succ] at h ⊢
      exact recordAll_get ap ks v (n + 1) i x h

theorem recordAll_true {c : Ctx} {e1 e2 : Env} {ap : List Nat} {ks : List Constraint}
    {v : List Entry} (hk : AllSat c e1 e2 ks) (hv : VecTrue c e1 e2 v) :
    VecTrue c e1 e2 (recordAll ap 0 ks v) := by
  intro i l x hl hx
  obtain ⟨y, hy, rfl | ⟨k, hki, rfl⟩⟩ := recordAll_get ap ks v 0 i x hx
  · exact hv i l x hl hy
  · exact recordConstraint_true (hk i l k hl hki) (hv i l y hl hy)

theorem deltaTest_sound {c : Ctx} {loops : Nat → Loop} (hS : Setting c loops) {e1 e2 : Env}
    (he1 : Executes c.loops loops e1) (he2 : Executes c.loops loops e2)
    {ps : List (Node × Node)} (hp : ∀ p ∈ ps, GoodPair c e1 e2 p) {v : List Entry}
    {r : Bool × List Entry} (h : c.deltaTest ps v = .ok r) :
    r.1 = false ∧ (VecTrue c e1 e2 v → VecTrue c e1 e2 r.2) := by
  have hsiv : ∀ p ∈ ps, isSIV p.1 p.2 = true := by
    intro p hp'
    obtain ⟨l, hl⟩ := (hp p hp').one
    unfold loopForPair at hl
    simp only [isSIV, beq_iff_eq]
    split at hl
    · rename_i heq; rw [heq]; rfl
    · cases hl
  unfold Ctx.deltaTest at h
  have e1' : (ps.filter fun p => isSIV p.1 p.2) = ps := List.filter_eq_self.2 hsiv
  have e2' : (ps.filter fun p => !isSIV p.1 p.2) = [] :=
    List.filter_eq_nil_iff.2 fun p hp' => by simp [hsiv p hp']
  simp only [e1', e2'] at h
  bstep h o ho
  obtain ⟨ks, ap, rfl, hs⟩ := deltaLoop_sound hS he1 he2 hp ho
  simp only at h
  bstep h g hg
  unfold gcdAll at hg
  cases okOk hg
  rw [← pureOk h]
  exact ⟨rfl, recordAll_true hs⟩

end Verif.LoopDep
