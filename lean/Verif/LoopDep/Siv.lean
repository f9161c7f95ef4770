import Verif.LoopDep.Basics

set_option linter.unusedSimpArgs false
set_option linter.unusedVariables false

/-!
# The tests of one subscript with one induction variable
-/

namespace Verif.LoopDep

open Verif.ScalarEvo (Node Order simplify createNegation createMultiply createAdd
  createSubtraction addAll addChild recLoops loop? onlyRec Plain)
open Verif.ScalarEvo.Spec (Env eval evalSum Supported Affine RecFree count countSum slope slopeSum)
open Verif.LoopDep.Spec

theorem Spec.Setting.units {c : Ctx} {loops : Nat → Loop} (hS : Setting c loops) :
    Units loops c.loops := fun l hl => ⟨(hS.upward l hl).init, (hS.upward l hl).step⟩

/-! ## Values of normal forms -/

theorem norm_supported {ls : List Nat} {n : Node} (h : Norm ls n) : Supported false n := by
  cases h with
  | const v => trivial
  | recur l o k => exact ⟨trivial, trivial⟩
  | add cs hi =>
    refine (ScalarEvo.supportedList_iff _ _).2 fun c hc => ?_
    rcases hi c hc with ⟨v, rfl⟩ | ⟨l, k, _, _, rfl⟩
    · trivial
    · exact ⟨trivial, trivial⟩

theorem items_count_zero {ls : List Nat} {t : Node} (ht : t.isTerm = true) : ∀ {cs : List Node},
    (∀ c ∈ cs, Item ls c) → t ∉ cs → countSum t cs = 0
  | [], _, _ => rfl
  | c :: cs, hi, hn => by
    have ih := items_count_zero ht (fun c hc => hi c (List.mem_cons_of_mem _ hc))
      (fun h => hn (List.mem_cons_of_mem _ h))
    have hne : t ≠ c := fun h => hn (by simp [h])
    rcases hi c (by simp) with ⟨v, rfl⟩ | ⟨l, k, _, _, rfl⟩
    · simp [countSum, count, ih]
    · simp [countSum, count, ih, hne]

theorem items_slope_zero {ls : List Nat} {l : Nat} (e : Env) : ∀ {cs : List Node},
    (∀ c ∈ cs, Item ls c) → l ∉ recLoops cs → slopeSum e l cs = 0
  | [], _, _ => rfl
  | c :: cs, hi, hn => by
    rcases hi c (by simp) with ⟨v, rfl⟩ | ⟨l', k, _, _, rfl⟩
    · have hn' : l ∉ recLoops cs := hn
      have ih := items_slope_zero e (fun c hc => hi c (List.mem_cons_of_mem _ hc)) hn'
      simp [slopeSum, slope, ih]
    · have hn' : l ∉ l' :: recLoops cs := hn
      simp only [List.mem_cons, not_or] at hn'
      have ih := items_slope_zero e (fun c hc => hi c (List.mem_cons_of_mem _ hc)) hn'.2
      have hne : l' ≠ l := fun h => hn'.1 h.symm
      simp [slopeSum, slope, ih, hne]

theorem items_slope {ls : List Nat} {l : Nat} {k : Int} (e : Env) : ∀ {cs : List Node},
    (∀ c ∈ cs, Item ls c) → (recLoops cs).Nodup → Node.recur l (.const 0) (.const k) ∈ cs →
    slopeSum e l cs = k
  | [], _, _, h => by cases h
  | c :: cs, hi, hd, hm => by
    have hi' : ∀ c ∈ cs, Item ls c := fun c hc => hi c (List.mem_cons_of_mem _ hc)
    rcases hi c (by simp) with ⟨v, rfl⟩ | ⟨l', k', _, _, rfl⟩
    · have hd' : (recLoops cs).Nodup := hd
      rcases List.mem_cons.1 hm with h | hm
      · cases h
      · simp [slopeSum, slope, items_slope e hi' hd' hm]
    · have hd' : l' ∉ recLoops cs ∧ (recLoops cs).Nodup := List.nodup_cons.1 hd
      rcases List.mem_cons.1 hm with h | hm
      · cases h
        simp [slopeSum, slope, eval, items_slope_zero e hi' hd'.1]
      · have hne : l' ≠ l := fun h => hd'.1 (by subst h; exact ScalarEvo.mem_recLoops.2 ⟨_, _, hm⟩)
        simp [slopeSum, slope, hne, items_slope e hi' hd'.2 hm]

/-- Subtracting zero from a normal form does not change its value. -/
theorem norm_add_zero {o : Order} {fuel : Nat} {ls : List Nat} {u m : Node} (hu : Norm ls u)
    (h : simplify o fuel (.add (addChild o (.const 0) [u])) = .ok m) (e : Env) :
    eval e m = eval e u := by
  have hcount : ∀ t, count t (.add (addChild o (.const 0) [u])) = count t u := by
    intro t
    simp only [addChild]
    split <;> simp [count, countSum]
  have hslope : ∀ e l, slope e l (.add (addChild o (.const 0) [u])) = slope e l u := by
    intro e l
    simp only [addChild]
    split <;> simp [slope, slopeSum]
  have hsup : Supported false (.add (addChild o (.const 0) [u])) := by
    refine (ScalarEvo.supportedList_iff _ _).2 fun c hc => ?_
    rcases (ScalarEvo.mem_addChild o _ _ _).1 hc with rfl | hc
    · trivial
    · simp at hc; subst hc; exact norm_supported hu
  have hv := ScalarEvo.simplify_supported o fuel hsup
    (by
      intro l off coef
      rw [hcount]
      cases hu with
      | const v => simp [count]
      | recur l' o' k' =>
        left; simp only [count]; split <;> decide
      | add cs hi hd h2 =>
        by_cases hm : Node.recur l off coef ∈ cs
        · rcases hi _ hm with ⟨v, hx⟩ | ⟨_, _, _, _, hx⟩
          · cases hx
          · cases hx; exact .inr rfl
        · left; simp only [count]; rw [items_count_zero rfl hi hm]; decide)
    (by
      left; intro i
      rw [hcount]
      cases hu with
      | const v => simp [count]
      | recur l' o' k' => simp [count]
      | add cs hi hd h2 =>
        simp only [count]
        rw [items_count_zero rfl hi (fun hm => by
          rcases hi _ hm with ⟨v, hx⟩ | ⟨_, _, _, _, hx⟩ <;> cases hx)]
        decide)
    (by
      intro l off coef hlive
      refine ⟨origin, ?_⟩
      rw [hslope]
      unfold ScalarEvo.Spec.Live at hlive
      rw [hcount] at hlive
      cases hu with
      | const v => simp [count] at hlive
      | recur l' o' k' hl hk =>
        simp only [count] at hlive
        split at hlive
        · rename_i heq; cases heq; simpa [slope, eval] using hk
        · simp at hlive
      | add cs hi hd h2 =>
        simp only [count] at hlive
        have hm : Node.recur l off coef ∈ cs :=
          Classical.byContradiction fun hm => hlive (items_count_zero rfl hi hm)
        rcases hi _ hm with ⟨v, hx⟩ | ⟨_, k, _, hk, hx⟩
        · cases hx
        · cases hx
          simp only [slope]
          rw [items_slope origin hi hd hm]; exact hk)
    h
  rw [hv e]
  simp only [eval, ScalarEvo.evalSum_addChild, evalSum]; omega

/-- Something whose simplification is known to be right. -/
def Tame (ls : List Nat) (n : Node) : Prop := Plain n ∨ Norm ls n

theorem sub_nonconst {o : Order} {u m : Node} {w : Int} (hne : ∀ v, u ≠ .const v)
    (hc : u ≠ .cant) (h : createSubtraction o u (.const w) = .ok m) :
    m = .add (addChild o (.const (-w)) [u]) := by
  have key : ∀ y, createNegation (.const w) = .ok y → createAdd o u y = .ok m →
      m = .add (addChild o (.const (-w)) [u]) := by
    intro y hy h
    cases negConst hy
    cases u with
    | const v => exact (hne v rfl).elim
    | cant => exact (hc rfl).elim
    | _ => exact (okOk h).symm
  cases u with
  | const v => exact (hne v rfl).elim
  | cant => exact (hc rfl).elim
  | _ =>
    unfold createSubtraction at h
    bstep h y hy
    exact key y hy h

theorem simpSub_zero {c : Ctx} {u m : Node} (hu : Tame c.loops u)
    (h : c.simpSub u (.const 0) = .ok m) (e : Env) : eval e m = eval e u := by
  by_cases hcst : ∃ v, u = .const v
  · obtain ⟨v, rfl⟩ := hcst
    cases simpSubConst h; simp [eval]
  · have hc : u ≠ .cant := by
      rcases hu with hu | hu
      · exact ScalarEvo.plain_ne_cant hu
      · rintro rfl; cases hu
    unfold Ctx.simpSub at h
    bstep h x hx
    replace h := scOk h
    cases sub_nonconst (fun v hv => hcst ⟨v, hv⟩) hc (scOk hx)
    rcases hu with hu | hu
    · have hp : Plain (.add (addChild c.order (.const (-0)) [u])) := ScalarEvo.plain_add (by
        intro d hd
        rcases (ScalarEvo.mem_addChild _ _ _ _).1 hd with rfl | hd
        · exact ⟨trivial, trivial⟩
        · simp at hd; subst hd; exact hu)
      rw [(ScalarEvo.simplify_plain c.order c.fuel _ _ hp h).1 e]
      simp only [eval, ScalarEvo.evalSum_addChild, evalSum]; omega
    · exact norm_add_zero hu h e

/-! ## Loop bounds -/

theorem lowerBound_zero {c : Ctx} {loops : Nat → Loop} (hS : Setting c loops) {l : Nat}
    (hl : l ∈ c.loops) {r : Option Node} (h : c.lowerBound l = .ok r) : r = some (.const 0) := by
  have hd := hS.describes l hl
  unfold Ctx.lowerBound at h
  rw [hd.cond, hd.lhs, (hS.upward l hl).init] at h
  bstep h x hx
  rw [← pureOk h, simpConst hx]

/-- The simplified limit. -/
theorem limit_value {c : Ctx} {loops : Nat → Loop} (hS : Setting c loops) {n m : Node}
    (hn : Affine n ∨ Linear loops c.loops n) (h : c.simp n = .ok m) :
    Tame c.loops m ∧ ∀ e, eval e m = eval e n := by
  have h := scOk h
  rcases hn with hn | hn
  · obtain ⟨h1, h2⟩ := ScalarEvo.simplify_plain c.order c.fuel n m (ScalarEvo.affine_plain hn) h
    exact ⟨.inl h2, h1⟩
  · obtain ⟨h1, h2⟩ := simplify_linear c.order c.fuel hS.units hn h
    exact ⟨.inr h1, h2⟩

theorem minus_one {c : Ctx} {loops : Nat → Loop} {n m : Node}
    (hn : Affine n ∨ Linear loops c.loops n)
    (h : createSubtraction c.order n (.const 1) = .ok m) :
    (Affine m ∨ Linear loops c.loops m) ∧ ∀ e, eval e m = eval e n - 1 := by
  have hc : n ≠ .cant := by
    rintro rfl; rcases hn with hn | hn <;> exact hn.elim
  refine ⟨?_, fun e => by rw [ScalarEvo.eval_createSubtraction c.order e hc (by simp) h]; rfl⟩
  by_cases hcst : ∃ v, n = .const v
  · obtain ⟨v, rfl⟩ := hcst
    cases subConst h; exact .inl trivial
  · cases sub_nonconst (fun v hv => hcst ⟨v, hv⟩) hc h
    rcases hn with hn | hn
    · left
      show ScalarEvo.Spec.AffineList _
      simp only [addChild]
      split <;> simp [ScalarEvo.Spec.AffineList, hn, Affine]
    · right
      show LinearList _ _ _
      simp only [addChild]
      split <;> simp [LinearList, hn, Linear]

/-- The upper bound is one. -/
theorem upperBound_value {c : Ctx} {loops : Nat → Loop} (hS : Setting c loops) {l : Nat}
    (hl : l ∈ c.loops) {r : Option Node} (h : c.upperBound l = .ok r) :
    ∃ u, r = some u ∧ Tame c.loops u ∧
      ∀ e, (loops l).runs e (e.iteration l) → 0 ≤ e.iteration l ∧ e.iteration l ≤ eval e u := by
  have hd := hS.describes l hl
  have hw := hS.upward l hl
  have hval : ∀ t, (loops l).value t = t := fun t => by
    simp [Loop.value, hw.init, hw.step]
  unfold Ctx.upperBound at h
  rw [hd.cond, hd.rhs] at h
  rcases hw.rel with hr | hr
  · rw [hr] at h
    bstep h x hx
    cases pureOk h
    unfold Ctx.simpSub at hx
    bstep hx y hy
    obtain ⟨h1, h2⟩ := minus_one hw.limit (scOk hy)
    obtain ⟨h3, h4⟩ := limit_value hS h1 hx
    refine ⟨x, rfl, h3, fun e hrun => ⟨hrun.1, ?_⟩⟩
    have := hrun.2.2 hw.testFirst
    rw [hval, hr] at this
    have this : e.iteration l < eval e (loops l).limit := this
    rw [h4, h2]; omega
  · rw [hr] at h
    bstep h x hx
    cases pureOk h
    obtain ⟨h3, h4⟩ := limit_value hS hw.limit hx
    refine ⟨x, rfl, h3, fun e hrun => ⟨hrun.1, ?_⟩⟩
    have := hrun.2.2 hw.testFirst
    rw [hval, hr] at this
    have this : e.iteration l ≤ eval e (loops l).limit := this
    rw [h4]; omega

theorem constantTerm_value {c : Ctx} {loops : Nat → Loop} (hS : Setting c loops) {l : Nat}
    (hl : l ∈ c.loops) {v : Int} {r : Option Node} (h : c.constantTerm l (.const v) = .ok r) :
    r = some (.const v) := by
  unfold Ctx.constantTerm at h
  bstep h lo hlo
  cases lowerBound_zero hS hl hlo
  bstep h x hx
  rw [← pureOk h, simpSubConst hx]; simp

/-! ## Entries -/

/-- An update of an entry keeps it true. -/
def Keeps (t1 t2 : Int) (trips : Option Int) (x x' : Option Entry) : Prop :=
  ∀ x1, x' = some x1 → ∃ x0, x = some x0 ∧ (EntryTrue x0 t1 t2 trips → EntryTrue x1 t1 t2 trips)

theorem Keeps.refl (t1 t2 : Int) (trips : Option Int) (x : Option Entry) : Keeps t1 t2 trips x x :=
  fun x1 h => ⟨x1, h, id⟩

theorem Keeps.trans {t1 t2 : Int} {trips : Option Int} {x y z : Option Entry}
    (h1 : Keeps t1 t2 trips x y) (h2 : Keeps t1 t2 trips y z) : Keeps t1 t2 trips x z := by
  intro z1 hz
  obtain ⟨y0, hy, hy'⟩ := h2 z1 hz
  obtain ⟨x0, hx, hx'⟩ := h1 y0 hy
  exact ⟨x0, hx, fun h => hy' (hx' h)⟩

theorem keeps_upd {t1 t2 : Int} {trips : Option Int} {x x' : Option Entry} {f : Entry → Entry}
    (h : upd x f = .ok x') (hf : ∀ y, EntryTrue y t1 t2 trips → EntryTrue (f y) t1 t2 trips) :
    Keeps t1 t2 trips x x' := by
  obtain ⟨x0, rfl, rfl⟩ := updOk h
  intro x1 hx
  cases hx
  exact ⟨x0, rfl, hf x0⟩

theorem direct_all_true {t1 t2 : Int} {trips : Option Int} (y : Entry)
    (h : EntryTrue y t1 t2 trips) : EntryTrue (Entry.direct .all y) t1 t2 trips where
  lt := by simp [Entry.direct]
  eq := by simp [Entry.direct]
  gt := by simp [Entry.direct]
  some := by simp [Entry.direct]
  distance := h.distance
  point := h.point
  first := h.first
  last := h.last

theorem atDistance_true {t1 t2 d : Int} {trips : Option Int} (y : Entry) {dir : Dir}
    (hd : t1 - t2 = d) (hl : dir = .lt → 0 < d) (he : dir = .eq → d = 0) (hg : dir = .gt → d < 0)
    (hn : dir ≠ .none)
    (h : EntryTrue y t1 t2 trips) : EntryTrue (Entry.atDistance dir d y) t1 t2 trips where
  lt := fun hh => by have := hl hh; omega
  eq := fun hh => by have := he hh; omega
  gt := fun hh => by have := hg hh; omega
  some := hn
  distance := fun _ => hd
  point := by simp [Entry.atDistance]
  first := h.first
  last := h.last

theorem strongDir_true {t1 t2 d : Int} {trips : Option Int} (y : Entry)
    (hd : t1 - t2 = d) (h : EntryTrue y t1 t2 trips) : EntryTrue (strongDir d y) t1 t2 trips := by
  unfold strongDir
  split
  · exact atDistance_true y hd (fun _ => ‹_›) (fun h => by cases h) (fun h => by cases h)
      (by decide) h
  · split
    · exact atDistance_true y (by omega) (fun h => by cases h) (fun _ => rfl) (fun h => by cases h)
        (by decide) h
    · exact atDistance_true y hd (fun h => by cases h) (fun h => by cases h) (fun _ => by omega)
        (by decide) h

theorem peelsFirst_true {t1 t2 : Int} {trips : Option Int} (y : Entry) (ht : t1 = 0 ∨ t2 = 0)
    (h : EntryTrue y t1 t2 trips) : EntryTrue (Entry.peelsFirst y) t1 t2 trips where
  lt := h.lt
  eq := h.eq
  gt := h.gt
  some := h.some
  distance := by simp [Entry.peelsFirst]
  point := by simp [Entry.peelsFirst]
  first := fun _ => ht
  last := h.last

theorem peelsLast_true {t1 t2 : Int} {trips : Option Int} (y : Entry)
    (ht : ∀ n, trips = some n → t1 = n - 1 ∨ t2 = n - 1)
    (h : EntryTrue y t1 t2 trips) : EntryTrue (Entry.peelsLast y) t1 t2 trips where
  lt := h.lt
  eq := h.eq
  gt := h.gt
  some := h.some
  distance := by simp [Entry.peelsLast]
  point := by simp [Entry.peelsLast]
  first := h.first
  last := fun _ => ht

/-! ## The tests -/

/-- What a test must do when the subscripts are equal. -/
def Sound (t1 t2 : Int) (trips : Option Int) (x : Option Entry) (v : Verdict) : Prop :=
  v.1 = false ∧ Keeps t1 t2 trips x v.2

theorem settle_sound {t1 t2 : Int} {trips : Option Int} {x : Option Entry} {v r : Verdict}
    (h : settle v = .ok r) (hv : Sound t1 t2 trips x v) : Sound t1 t2 trips x r := by
  unfold settle at h
  rw [hv.1] at h
  simp at h
  subst h
  exact hv

theorem strong_sound {c : Ctx} {loops : Nat → Loop} (hS : Setting c loops) {l : Nat}
    (hl : l ∈ c.loops) {o1 o2 k : Int} (hk : k ≠ 0) {e1 e2 : Env}
    (hr1 : (loops l).runs e1 (e1.iteration l)) (hr2 : (loops l).runs e2 (e2.iteration l))
    (heq : k * e1.iteration l + o1 = k * e2.iteration l + o2) {x : Option Entry} {v : Verdict}
    (h : c.strongSIV (.recur l (.const o1) (.const k)) (.recur l (.const o2) (.const k)) (.const k) x
      = .ok v) :
    Sound (e1.iteration l) (e2.iteration l) (c.info l).trips x v := by
  unfold Ctx.strongSIV at h
  simp only [hasUnknown, Bool.or_self, Bool.false_eq_true, if_false, asRecur] at h
  bstep h l' hl'
  have : l' = l := by
    have := derefOk hl'
    simp [loopForPair, pairLoops, loopsOf, collect, Node.recurrents, loopOf, toSet, insertNew] at this
    exact this.symm
  subst this
  bstep h st hst
  cases constantTerm_value hS hl hst
  bstep h dt hdt
  cases constantTerm_value hS hl hdt
  bstep h delta hdelta
  cases simpSubConst hdelta
  simp only [asConst] at h
  have hv : o2 - o1 = k * (e1.iteration l' - e2.iteration l') := by
    rw [Int.mul_sub]; omega
  bstep h m hm
  have hm := (mod64Ok hm).2
  rw [hv, tmod_exact] at hm
  subst hm
  simp only [ne_eq, not_true, if_false] at h
  bstep h q hq
  have hq := (div64Ok hq).2
  rw [hv, tdiv_exact hk] at hq
  unfold Ctx.strongBounds at h
  bstep h lo hlo
  cases lowerBound_zero hS hl hlo
  bstep h up hup
  obtain ⟨u, rfl, htame, hu⟩ := upperBound_value hS hl hup
  simp only at h
  bstep h b hb
  have hok : ∀ {r}, (do return (false, ← upd x (strongDir q)) : Except Err Verdict) = .ok r →
      Sound (e1.iteration l') (e2.iteration l') (c.info l').trips x r := by
    intro r hr
    bstep hr x' hx'
    cases pureOk hr
    exact ⟨rfl, keeps_upd hx' fun y => strongDir_true y hq.symm⟩
  split at h
  · rename_i bv hbv
    have hbv := asConst_some hbv
    subst hbv
    bstep h a1 ha1
    bstep h a2 ha2
    have ha1 := abs64Ok ha1
    have ha2 := abs64Ok ha2
    have hb1 := simpSub_zero htame hb e1
    have hb2 := simpSub_zero htame hb e2
    simp only [eval] at hb1 hb2
    have hu1 := hu e1 hr1
    have hu2 := hu e2 hr2
    rw [if_neg (by omega)] at h
    exact hok h
  · exact hok h

theorem weakZero_sound {c : Ctx} {loops : Nat → Loop} (hS : Setting c loops) {l : Nat}
    (hl : l ∈ c.loops) {f o k : Int} (hk : k ≠ 0) {e1 e2 : Env} {b : Bool}
    (hr1 : (loops l).runs e1 (e1.iteration l)) (hr2 : (loops l).runs e2 (e2.iteration l))
    (heq : f = k * e2.iteration l + o) {x : Option Entry} {v : Verdict} {t1 t2 : Int}
    (ht : t1 = e2.iteration l ∨ t2 = e2.iteration l)
    (h : c.weakZero b (.const f) l (.const o) (.const k) x = .ok v) :
    Sound t1 t2 (c.info l).trips x v := by
  have hpeel : ∀ {r}, c.weakZeroPeel b l (.const f) (.const o) (.const k) x = .ok r →
      Sound t1 t2 (c.info l).trips x r := by
    intro r hr
    unfold Ctx.weakZeroPeel at hr
    bstep hr term hterm
    cases constantTerm_value hS hl hterm
    bstep hr fi hfi
    bstep hr te hte
    cases derefOk hte
    have hfi := derefOk hfi
    have hfc : fi = .const 0 := by
      unfold Ctx.firstTrip at hfi
      cases hin : (c.info l).init with
      | none => rw [hin] at hfi; cases hfi
      | some i =>
        rw [hin] at hfi
        have := (hS.describes l hl).init i hin
        rw [(hS.upward l hl).init] at this
        subst this
        simpa using hfi.symm
    subst hfc
    bstep hr first hfirst
    cases simpAddConst hfirst
    split at hr
    · rename_i hcond
      have hcond : f = 0 + o := by simpa using hcond
      bstep hr x' hx'
      cases pureOk hr
      refine ⟨rfl, keeps_upd hx' fun y => peelsFirst_true y ?_⟩
      have : k * e2.iteration l = 0 := by omega
      have := (Int.mul_eq_zero.1 this).resolve_left hk
      rcases ht with h | h
      · exact .inl (by omega)
      · exact .inr (by omega)
    · bstep hr fo hfo
      bstep hr ft hft
      cases derefOk hft
      bstep hr te hte
      cases derefOk hte
      bstep hr last hlast
      unfold Ctx.finalTrip at hfo
      rw [hfi] at hfo
      simp only at hfo
      bstep hfo n hn
      bstep hfo cnt hcnt
      cases simpSubConst hcnt
      bstep hfo mu hmu
      cases mulConst (scOk hmu)
      bstep hfo sum hsum
      cases simpAddConst hsum
      cases pureOk hfo
      cases simpAddConst hlast
      simp only [asConst, Option.isSome_some, Option.isNone_some, Bool.and_false,
        Bool.false_eq_true, if_false] at hr
      split at hr
      · rename_i hcond
        have hcond : f = 0 + (n - 1) * k + o := by simpa using hcond
        bstep hr x' hx'
        cases pureOk hr
        refine ⟨rfl, keeps_upd hx' fun y => peelsLast_true y fun n' hn' => ?_⟩
        have hn := derefOk hn
        rw [hn] at hn'
        cases hn'
        have : k * e2.iteration l = k * (n - 1) := by rw [Int.mul_comm k (n - 1)]; omega
        have := Int.eq_of_mul_eq_mul_left hk this
        rcases ht with h | h
        · exact .inl (by omega)
        · exact .inr (by omega)
      · bstep hr x' hx'
        cases pureOk hr
        exact ⟨rfl, keeps_upd hx' direct_all_true⟩
  unfold Ctx.weakZero at h
  bstep h term hterm
  bstep h tm htm
  cases constantTerm_value hS hl hterm
  cases derefOk htm
  bstep h delta hdelta
  cases simpSubConst hdelta
  simp only [asConst] at h
  have hv : f - o = k * e2.iteration l := by omega
  bstep h vd hvd
  bstep hvd m hm
  have hm := (mod64Ok hm).2
  rw [hv, tmod_exact] at hm
  subst hm
  simp only [ne_eq, not_true, if_false] at hvd
  bstep hvd q hq
  have hq := (div64Ok hq).2
  rw [hv, tdiv_exact hk] at hq
  cases pureOk hvd
  simp only at h
  bstep h lo hlo
  cases lowerBound_zero hS hl hlo
  bstep h lo' hlo'
  cases derefOk hlo'
  bstep h up hup
  obtain ⟨u, rfl, htame, hu⟩ := upperBound_value hS hl hup
  bstep h up' hup'
  cases derefOk hup'
  simp only [asConst] at h
  split at h
  · rename_i lv uv hlv huv
    cases hlv
    cases asConst_some huv
    bstep h a1 ha1
    have ha1 := abs64Ok ha1
    have hu2 := hu e2 hr2
    simp only [eval] at hu2
    have hin : isWithinBounds a1 0 uv = true := by
      unfold isWithinBounds
      split
      · simp; omega
      · split
        · omega
        · simp; omega
    simp only [hin, Bool.not_true, Bool.false_eq_true, if_false] at h
    exact hpeel h
  · exact hpeel h

theorem crossing_sound {c : Ctx} {l : Nat} {o1 o2 k : Int} (hk : k ≠ 0) {t1 t2 : Int}
    (h1 : 0 ≤ t1) (h2 : 0 ≤ t2) (heq : k * t1 + o1 = -k * t2 + o2) {x : Option Entry} {v : Verdict}
    {trips : Option Int}
    (h : c.weakCrossing (.recur l (.const o1) (.const k)) (.recur l (.const o2) (.const (-k)))
      (.const k) x = .ok v) :
    v.1 = false ∧ (o2 - o1 ≠ k → Keeps t1 t2 trips x v.2) := by
  unfold Ctx.weakCrossing at h
  simp only [asRecur] at h
  bstep h delta hdelta
  cases simpSubConst hdelta
  simp only [asConst] at h
  have hv : o2 - o1 = k * (t1 + t2) := by
    rw [Int.neg_mul] at heq; rw [Int.mul_add]; omega
  bstep h k2 hk2
  cases i64Ok hk2
  bstep h m hm
  have hm := (mod64Ok hm).2
  have hm' : m = k * (t1 + t2).tmod 2 := by
    rw [hm, hv, Int.mul_comm 2 k, tmod_scale hk]
  have hq' : ∀ q, div64 (o2 - o1) (2 * k) = .ok q → q = (t1 + t2).tdiv 2 := by
    intro q hq
    rw [(div64Ok hq).2, hv, Int.mul_comm 2 k]
    exact tdiv_scale hk _ _
  have hcond : (decide (m ≠ 0) && !ratioIsHalf m (2 * k)) = false := by
    have : (t1 + t2).tmod 2 = 0 ∨ (t1 + t2).tmod 2 = 1 := by
      rw [Int.tmod_eq_emod_of_nonneg (by omega)]; omega
    rcases this with h0 | h0
    · simp [hm', h0]
    · rw [hm', h0, Int.mul_one, ratioIsHalf_self]; simp
  rw [hcond] at h
  simp only [Bool.false_eq_true, if_false] at h
  bstep h q hq
  have hq := hq' q hq
  rw [Int.tdiv_eq_ediv_of_nonneg (by omega)] at hq
  split at h
  · rename_i hq0
    bstep h x' hx'
    cases pureOk h
    refine ⟨rfl, fun hne => keeps_upd hx' fun y => atDistance_true y ?_ (fun h => by cases h)
      (fun _ => rfl) (fun h => by cases h) (by decide)⟩
    have : t1 + t2 ≠ 1 := fun h1 => hne (by rw [hv, h1, Int.mul_one])
    omega
  · bstep h x' hx'
    cases pureOk h
    exact ⟨rfl, fun _ => keeps_upd hx' direct_all_true⟩

end Verif.LoopDep
