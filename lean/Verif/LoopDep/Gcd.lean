import Verif.LoopDep.Siv

set_option linter.unusedSimpArgs false
set_option linter.unusedVariables false

/-!
# All tests of one pair of subscripts
-/

namespace Verif.LoopDep

open Verif.ScalarEvo (Node Order simplify createNegation createMultiply createAdd
  createSubtraction addAll addChild recLoops loop? onlyRec Plain)
open Verif.ScalarEvo.Spec (Env eval evalSum Supported Affine RecFree count countSum slope slopeSum)
open Verif.LoopDep.Spec

/-! ## The GCD test -/

/-- The sum of the offsets of recurrent expressions, where they are constants. -/
def offSum : List (Nat × Node × Node) → Int
  | [] => 0
  | r :: rs => (asConst r.2.1).getD 0 + offSum rs

def constSum : List Int → Int
  | [] => 0
  | v :: vs => v + constSum vs

theorem offSum_append (xs ys : List (Nat × Node × Node)) :
    offSum (xs ++ ys) = offSum xs + offSum ys := by
  induction xs with
  | nil => simp [offSum]
  | cons x xs ih => simp [offSum, ih]; omega

theorem constSum_append (xs ys : List Int) : constSum (xs ++ ys) = constSum xs + constSum ys := by
  induction xs with
  | nil => simp [constSum]
  | cons x xs ih => simp [constSum, ih]; omega

theorem sumOffsets_ok : ∀ {rs : List (Nat × Node × Node)} {acc v : Int},
    sumOffsets acc rs = .ok v → v = acc + offSum rs
  | [], acc, v, h => by unfold sumOffsets at h; rw [← okOk h]; simp [offSum]
  | r :: rs, acc, v, h => by
    unfold sumOffsets at h
    bstep h x hx
    bstep h y hy
    rw [sumOffsets_ok h, i64Ok hy, offSum, derefOk hx]; simp; omega

theorem sumConstants_ok : ∀ {vs : List Int} {acc v : Int},
    sumConstants acc vs = .ok v → v = acc + constSum vs
  | [], acc, v, h => by unfold sumConstants at h; rw [← okOk h]; simp [constSum]
  | w :: vs, acc, v, h => by
    unfold sumConstants at h
    bstep h y hy
    rw [sumConstants_ok h, i64Ok hy, constSum]; omega

theorem gcdCoefficients_ok : ∀ {rs : List (Nat × Node × Node)} {g G : Nat},
    gcdCoefficients g rs = .ok G →
    G ∣ g ∧ ∀ r ∈ rs, ∃ k, r.2.2 = .const k ∧ (G : Int) ∣ k
  | [], g, G, h => by unfold gcdCoefficients at h; rw [← okOk h]; simp
  | r :: rs, g, G, h => by
    unfold gcdCoefficients at h
    bstep h k hk
    bstep h a ha
    obtain ⟨h1, h2⟩ := gcdCoefficients_ok h
    rw [stein_gcd, abs64Ok ha] at h1
    refine ⟨Nat.dvd_trans h1 (Nat.gcd_dvd_left _ _), fun r' hr' => ?_⟩
    rcases List.mem_cons.1 hr' with rfl | hr'
    · refine ⟨k, asConst_some (derefOk hk), ?_⟩
      have : G ∣ k.natAbs := by
        simpa using Nat.dvd_trans h1 (Nat.gcd_dvd_right _ _)
      exact Int.ofNat_dvd_left.2 this
    · exact h2 r' hr'

mutual
theorem gcdForm_value (g : Int) (e : Env) : ∀ n : Node, gcdForm n = true →
    (∀ r ∈ topRecurrences n, (∃ o, r.2.1 = .const o) ∧ ∃ k, r.2.2 = .const k ∧ g ∣ k) →
    ∃ q, eval e n = offSum (topRecurrences n) + constSum (topConstants n) + g * q
  | .const v, _, _ => ⟨0, by simp [eval, topRecurrences, topConstants, offSum, constSum]⟩
  | .recur l off coef, _, h => by
    obtain ⟨⟨o, ho⟩, k, hk, q, rfl⟩ := h (l, off, coef) (by simp [topRecurrences])
    simp only at ho hk
    subst ho hk
    refine ⟨q * e.iteration l, ?_⟩
    simp only [eval, topRecurrences, topConstants, offSum, constSum, asConst, Option.getD_some,
      Int.mul_assoc]
    omega
  | .add cs, hf, h => by
    simp only [eval, topRecurrences, topConstants] at h ⊢
    exact gcdFormList_value g e cs hf h
  | .unknown _, h, _ => by simp [gcdForm] at h
  | .mul _ _, h, _ => by simp [gcdForm] at h
  | .neg _, h, _ => by simp [gcdForm] at h
  | .cant, h, _ => by simp [gcdForm] at h
theorem gcdFormList_value (g : Int) (e : Env) : ∀ cs : List Node, gcdFormList cs = true →
    (∀ r ∈ topRecurrencesList cs, (∃ o, r.2.1 = .const o) ∧ ∃ k, r.2.2 = .const k ∧ g ∣ k) →
    ∃ q, evalSum e cs = offSum (topRecurrencesList cs) + constSum (topConstantsList cs) + g * q
  | [], _, _ => ⟨0, by simp [evalSum, topRecurrencesList, topConstantsList, offSum, constSum]⟩
  | c :: cs, hf, h => by
    simp only [gcdFormList, Bool.and_eq_true] at hf
    simp only [topRecurrencesList, List.mem_append] at h
    obtain ⟨q1, h1⟩ := gcdForm_value g e c hf.1 (fun r hr => h r (.inl hr))
    obtain ⟨q2, h2⟩ := gcdFormList_value g e cs hf.2 (fun r hr => h r (.inr hr))
    refine ⟨q1 + q2, ?_⟩
    simp only [evalSum, topRecurrencesList, topConstantsList, offSum_append, constSum_append, h1, h2,
      Int.mul_add]
    omega
end

theorem gcd_sound {s d : Node} (h : gcdTest s d = .ok true) (e1 e2 : Env) :
    eval e1 s ≠ eval e2 d := by
  intro heq
  unfold gcdTest at h
  split at h
  · simp at h
  · rename_i hf
    split at h
    · simp at h
    · rename_i ho
      simp only [Bool.or_eq_true, Bool.not_eq_true', not_or, Bool.not_eq_false] at hf ho
      bstep h s0 hs0
      bstep h sv hsv
      bstep h d0 hd0
      bstep h dv hdv
      bstep h df hdf
      bstep h dl hdl
      bstep h g0 hg0
      bstep h g hg
      bstep h m hm
      have hm' : m ≠ 0 := by
        have := pureOk h; simpa using this
      obtain ⟨g1, g2⟩ := gcdCoefficients_ok hg
      obtain ⟨g3, g4⟩ := gcdCoefficients_ok hg0
      have hoff : ∀ {rs : List (Nat × Node × Node)}, offsetsConstant rs = true →
          ∀ r ∈ rs, ∃ o, r.2.1 = .const o := by
        intro rs h r hr
        have := List.all_eq_true.1 h r hr
        obtain ⟨o, ho⟩ := Option.isSome_iff_exists.1 this
        exact ⟨o, asConst_some ho⟩
      obtain ⟨q1, e1'⟩ := gcdForm_value g e1 s hf.1 (fun r hr => ⟨hoff ho.1 r hr, by
        obtain ⟨k, hk, hd⟩ := g4 r hr
        exact ⟨k, hk, Int.dvd_trans (Int.natCast_dvd_natCast.2 g1) hd⟩⟩)
      obtain ⟨q2, e2'⟩ := gcdForm_value g e2 d hf.2 (fun r hr => ⟨hoff ho.2 r hr, g2 r hr⟩)
      have hs : sv = offSum (topRecurrences s) + constSum (topConstants s) := by
        rw [sumConstants_ok hsv, sumOffsets_ok hs0]; omega
      have hd : dv = offSum (topRecurrences d) + constSum (topConstants d) := by
        rw [sumConstants_ok hdv, sumOffsets_ok hd0]; omega
      have hdiff : sv - dv = g * (q2 - q1) := by rw [Int.mul_sub]; omega
      obtain ⟨hg0, hm⟩ := mod64Ok hm
      rw [abs64Ok hdl, i64Ok hdf, hdiff] at hm
      apply hm'
      rw [hm]
      refine Int.tmod_eq_zero_of_dvd ?_
      exact Int.dvd_natAbs.2 ⟨_, rfl⟩

/-! ## Loops of a pair -/

theorem mem_toSet {α : Type} [DecidableEq α] {a : α} : ∀ {xs acc : List α},
    a ∈ toSet acc xs ↔ a ∈ acc ∨ a ∈ xs
  | [], acc => by simp [toSet]
  | x :: xs, acc => by
    rw [toSet, mem_toSet]
    unfold insertNew
    split
    · rename_i h; constructor
      · rintro (h1 | h1)
        · exact .inl h1
        · exact .inr (by simp [h1])
      · rintro (h1 | h1)
        · exact .inl h1
        · rcases List.mem_cons.1 h1 with rfl | h1
          · exact .inl h
          · exact .inr h1
    · simp [or_assoc]

theorem nodup_toSet {α : Type} [DecidableEq α] : ∀ {xs acc : List α}, acc.Nodup →
    (toSet acc xs).Nodup
  | [], acc, h => h
  | x :: xs, acc, h => by
    rw [toSet]
    refine nodup_toSet ?_
    unfold insertNew
    split
    · exact h
    · rename_i hx
      rw [List.nodup_append]
      refine ⟨h, by simp, ?_⟩
      intro a ha b hb
      simp at hb; subst hb
      rintro rfl; exact hx ha

theorem mem_loopsOf {l : Nat} {ns : List Node} :
    l ∈ loopsOf ns ↔ ∃ off coef, Node.recur l off coef ∈ ns := by
  unfold loopsOf
  rw [mem_toSet, List.mem_filterMap]
  simp only [List.not_mem_nil, false_or]
  constructor
  · rintro ⟨n, hn, h⟩
    cases n <;> simp [loopOf] at h
    subst h; exact ⟨_, _, hn⟩
  · rintro ⟨off, coef, h⟩
    exact ⟨_, h, rfl⟩

theorem mem_pairLoops {l : Nat} {s d : Node} : l ∈ pairLoops s d ↔
    (∃ off coef, Node.recur l off coef ∈ s.recurrents) ∨
    ∃ off coef, Node.recur l off coef ∈ d.recurrents := by
  unfold pairLoops
  rw [mem_loopsOf]
  simp only [collect, List.mem_append]
  constructor
  · rintro ⟨o, k, h | h⟩
    · exact .inl ⟨o, k, h⟩
    · exact .inr ⟨o, k, h⟩
  · rintro (⟨o, k, h⟩ | ⟨o, k, h⟩)
    · exact ⟨o, k, .inl h⟩
    · exact ⟨o, k, .inr h⟩

theorem onlyRec_eq_recLoops {cs : List Node} {l : Nat} :
    (∃ off coef, Node.recur l off coef ∈ onlyRec cs) ↔ l ∈ recLoops cs := by
  rw [ScalarEvo.mem_recLoops]
  simp [onlyRec, List.mem_filter, Node.isRecur]

/-- The loops of a normal form. -/
theorem norm_loops {ls : List Nat} {n : Node} (h : Norm ls n) :
    (∃ v, n = .const v) ∨ (∃ l o k, l ∈ ls ∧ k ≠ 0 ∧ n = .recur l (.const o) (.const k)) ∨
    ∃ l1 l2, l1 ≠ l2 ∧ (∃ off coef, Node.recur l1 off coef ∈ n.recurrents) ∧
      ∃ off coef, Node.recur l2 off coef ∈ n.recurrents := by
  cases h with
  | const v => exact .inl ⟨v, rfl⟩
  | recur l o k hl hk => exact .inr (.inl ⟨l, o, k, hl, hk, rfl⟩)
  | add cs hi hd h2 =>
    refine .inr (.inr ?_)
    simp only [Node.recurrents, recurrentsList_items hi, onlyRec_eq_recLoops]
    match hr : recLoops cs, hd, h2 with
    | a :: b :: t, hd, _ =>
      simp only [List.nodup_cons, List.mem_cons, not_or] at hd
      exact ⟨a, b, hd.1.1, by simp, by simp⟩

/-- A pair with one loop. -/
theorem siv_shape {ls : List Nat} {s d : Node} (hs : Norm ls s) (hd : Norm ls d) {l : Nat}
    (h : loopForPair s d = some l) :
    l ∈ ls ∧
    ((∃ f o k, k ≠ 0 ∧ s = .const f ∧ d = .recur l (.const o) (.const k)) ∨
    (∃ f o k, k ≠ 0 ∧ s = .recur l (.const o) (.const k) ∧ d = .const f) ∨
    ∃ o1 k1 o2 k2, k1 ≠ 0 ∧ k2 ≠ 0 ∧ s = .recur l (.const o1) (.const k1) ∧
      d = .recur l (.const o2) (.const k2)) := by
  have hone : pairLoops s d = [l] := by
    unfold loopForPair at h
    split at h
    · simp at h; subst h; assumption
    · cases h
  have hmem : ∀ l', l' ∈ pairLoops s d → l' = l := fun l' hl' => by rw [hone] at hl'; simpa using hl'
  have hin : l ∈ pairLoops s d := by rw [hone]; simp
  rcases norm_loops hs with ⟨v, rfl⟩ | ⟨l1, o1, k1, hl1, hk1, rfl⟩ | ⟨a, b, hab, ha, hb⟩
  · rcases norm_loops hd with ⟨w, rfl⟩ | ⟨l2, o2, k2, hl2, hk2, rfl⟩ | ⟨a, b, hab, ha, hb⟩
    · simp [mem_pairLoops, Node.recurrents] at hin
    · have : l2 = l := hmem l2 (mem_pairLoops.2 (.inr ⟨_, _, List.mem_cons_self ..⟩))
      subst this
      exact ⟨hl2, .inl ⟨v, o2, k2, hk2, rfl, rfl⟩⟩
    · exact (hab ((hmem a (mem_pairLoops.2 (.inr ha))).trans
        (hmem b (mem_pairLoops.2 (.inr hb))).symm)).elim
  · have : l1 = l := hmem l1 (mem_pairLoops.2 (.inl ⟨_, _, List.mem_cons_self ..⟩))
    subst this
    rcases norm_loops hd with ⟨w, rfl⟩ | ⟨l2, o2, k2, hl2, hk2, rfl⟩ | ⟨a, b, hab, ha, hb⟩
    · exact ⟨hl1, .inr (.inl ⟨w, o1, k1, hk1, rfl, rfl⟩)⟩
    · have : l2 = l1 := hmem l2 (mem_pairLoops.2 (.inr ⟨_, _, List.mem_cons_self ..⟩))
      subst this
      exact ⟨hl1, .inr (.inr ⟨o1, k1, o2, k2, hk1, hk2, rfl, rfl⟩)⟩
    · exact (hab ((hmem a (mem_pairLoops.2 (.inr ha))).trans
        (hmem b (mem_pairLoops.2 (.inr hb))).symm)).elim
  · exact (hab ((hmem a (mem_pairLoops.2 (.inl ha))).trans
      (hmem b (mem_pairLoops.2 (.inl hb))).symm)).elim

theorem isSIV_loop {s d : Node} (h : isSIV s d = true) : ∃ l, loopForPair s d = some l := by
  simp only [isSIV, beq_iff_eq] at h
  obtain ⟨l, hl⟩ := List.length_eq_one_iff.1 h
  exact ⟨l, by simp [loopForPair, hl]⟩

theorem ziv_const {ls : List Nat} {s d : Node} (hs : Norm ls s) (hd : Norm ls d)
    (h : isZIV s d = true) : ∃ v w, s = .const v ∧ d = .const w := by
  have hno : ∀ l, l ∉ pairLoops s d := by
    simp only [isZIV, beq_iff_eq, List.length_eq_zero_iff] at h
    rw [h]; simp
  rcases norm_loops hs with ⟨v, rfl⟩ | ⟨l1, o1, k1, hl1, hk1, rfl⟩ | ⟨a, b, hab, ha, hb⟩
  · rcases norm_loops hd with ⟨w, rfl⟩ | ⟨l2, o2, k2, hl2, hk2, rfl⟩ | ⟨a, b, hab, ha, hb⟩
    · exact ⟨v, w, rfl, rfl⟩
    · exact (hno l2 (mem_pairLoops.2 (.inr ⟨_, _, List.mem_cons_self ..⟩))).elim
    · exact (hno a (mem_pairLoops.2 (.inr ha))).elim
  · exact (hno l1 (mem_pairLoops.2 (.inl ⟨_, _, List.mem_cons_self ..⟩))).elim
  · exact (hno a (mem_pairLoops.2 (.inl ha))).elim

/-! ## The SIV test -/

theorem growth_recur (l : Nat) (o k : Int) : growth l (.recur l (.const o) (.const k)) = k := by
  simp [growth, eval, oneStep, origin]

theorem base_recur (l : Nat) (o k : Int) : base (.recur l (.const o) (.const k)) = o := by
  simp [base, eval, origin]

theorem siv_sound {c : Ctx} {loops : Nat → Loop} (hS : Setting c loops) {s d : Node}
    (hs : Norm c.loops s) (hd : Norm c.loops d) {l : Nat} (hl : loopForPair s d = some l)
    {e1 e2 : Env} (he1 : Executes c.loops loops e1) (he2 : Executes c.loops loops e2)
    (heq : eval e1 s = eval e2 d) {x : Option Entry} {v : Verdict} (h : c.sivTest s d x = .ok v) :
    v.1 = false ∧ (¬ MeetHalfway s d →
      Keeps (e1.iteration l) (e2.iteration l) (c.info l).trips x v.2) := by
  obtain ⟨hin, hsh⟩ := siv_shape hs hd hl
  have hr1 := he1 l hin
  have hr2 := he2 l hin
  unfold Ctx.sivTest at h
  rcases hsh with ⟨f, o, k, hk, rfl, rfl⟩ | ⟨f, o, k, hk, rfl, rfl⟩ |
    ⟨o1, k1, o2, k2, hk1, hk2, rfl, rfl⟩
  · have hc0 : countLoops (.const f) = 0 := rfl
    have hc1 : countLoops (.recur l (.const o) (.const k)) ≠ 0 := by
      simp [countLoops, loopsOf, collect, Node.recurrents, loopOf, toSet, insertNew]
    simp only [hc0, if_true, hc1, if_false, asRecur, deref, hl] at h
    bstep h v1 hv1
    bstep hv1 r hr
    cases okOk hr
    bstep hv1 l' hl'
    cases okOk hl'
    bstep hv1 w hw
    simp only [eval] at heq
    have hsnd := settle_sound hv1 (weakZero_sound hS hin hk hr1 hr2 heq (.inr rfl) hw
      (t1 := e1.iteration l) (t2 := e2.iteration l))
    simp only [hsnd.1, Bool.false_eq_true, if_false] at h
    bstep h v2 hv2
    cases okOk hv2
    simp only [hsnd.1, Bool.false_eq_true, if_false, collect, Node.recurrents] at h
    cases pureOk h
    exact ⟨hsnd.1, fun _ => hsnd.2⟩
  · have hc0 : countLoops (.const f) = 0 := rfl
    have hc1 : countLoops (.recur l (.const o) (.const k)) ≠ 0 := by
      simp [countLoops, loopsOf, collect, Node.recurrents, loopOf, toSet, insertNew]
    simp only [hc0, if_true, hc1, if_false, asRecur, deref, hl] at h
    bstep h v1 hv1
    cases okOk hv1
    simp only [Bool.false_eq_true, if_false] at h
    bstep h v2 hv2
    bstep hv2 r hr
    cases okOk hr
    bstep hv2 l' hl'
    cases okOk hl'
    bstep hv2 w hw
    simp only [eval] at heq
    have hsnd := settle_sound hv2 (weakZero_sound hS hin hk hr2 hr1 heq.symm (.inl rfl) hw
      (t1 := e1.iteration l) (t2 := e2.iteration l))
    simp only [hsnd.1, Bool.false_eq_true, if_false, collect, Node.recurrents] at h
    cases pureOk h
    exact ⟨hsnd.1, fun _ => hsnd.2⟩
  · have hc1 : ∀ o k : Int, countLoops (.recur l (.const o) (.const k)) ≠ 0 := by
      intro o k
      simp [countLoops, loopsOf, collect, Node.recurrents, loopOf, toSet, insertNew]
    simp only [hc1, if_false] at h
    bstep h v1 hv1
    cases okOk hv1
    simp only [Bool.false_eq_true, if_false] at h
    bstep h v2 hv2
    cases okOk hv2
    simp only [Bool.false_eq_true, if_false, collect, Node.recurrents, List.append_nil] at h
    bstep h v3 hv3
    simp only [eval] at heq
    have hsnd : Sound (e1.iteration l) (e2.iteration l) (c.info l).trips x v3 := by
      split at hv3
      · rename_i hkk
        cases hkk
        bstep hv3 w hw
        exact settle_sound hv3 (strong_sound hS hin hk1 hr1 hr2 heq hw)
      · cases okOk hv3
        exact ⟨rfl, Keeps.refl _ _ _ _⟩
    simp only [hsnd.1, Bool.false_eq_true, if_false] at h
    bstep h nk hnk
    cases negConst (scOk hnk)
    split at h
    · rename_i hkk
      have hkk : k1 = -k2 := by simpa using hkk
      have hkk : k2 = -k1 := by omega
      subst hkk
      bstep h w hw
      have hcr := crossing_sound (trips := (c.info l).trips) hk1 hr1.1 hr2.1 heq hw
      unfold settle at h
      rw [hcr.1] at h
      simp only [Bool.false_eq_true, if_false] at h
      cases okOk h
      refine ⟨hcr.1, fun hno => hsnd.2.trans (hcr.2 fun hhalf => hno ⟨l, ?_, ?_, ?_⟩)⟩
      · rw [growth_recur]; exact hk1
      · rw [growth_recur, growth_recur]
      · rw [base_recur, base_recur, growth_recur]; exact hhalf
    · cases pureOk h
      exact ⟨hsnd.1, fun _ => hsnd.2⟩

end Verif.LoopDep
