import Verif.ScalarEvo.Finish

set_option linter.unusedSimpArgs false
set_option linter.unusedVariables false

namespace Verif.ScalarEvo

open Spec

/-! ## The recursion -/

mutual
theorem count_recFree (l : Nat) (off coef : Node) : ∀ n : Node, RecFree n →
    count (.recur l off coef) n = 0
  | .const _, _ => rfl
  | .unknown _, _ => by simp [count]
  | .recur .., h => h.elim
  | .add cs, h => by simp [count, countSum_recFree l off coef cs h]
  | .mul a b, h => by
      unfold count
      split
      · rename_i v x
        rw [if_neg]
        rintro rfl
        exact h.2.elim
      · rename_i x v _
        rw [if_neg]
        rintro rfl
        exact h.1.elim
      · rfl
  | .neg a, h => by simp [count, count_recFree l off coef a h]
  | .cant, h => h.elim
theorem countSum_recFree (l : Nat) (off coef : Node) : ∀ cs : List Node, RecFreeList cs →
    countSum (.recur l off coef) cs = 0
  | [], _ => rfl
  | c :: cs, h => by
      simp [countSum, count_recFree l off coef c h.1, countSum_recFree l off coef cs h.2]
end

theorem recFree_scaled {n : Node} (h : RecFree n) : ScaledFromZero n := fun l off coef => by
  left; rw [count_recFree l off coef n h]; decide

theorem simplify_plain (o : Order) : ∀ fuel, GoodSimp (simplify o fuel)
  | 0 => fun n m _ h => by cases h
  | fuel + 1 => by
    intro n m hn h
    have main : ∀ poly, simplifyPolynomial o (simplify o fuel) n = .ok poly →
        finish o (simplify o fuel) poly = .ok m → (∀ e, eval e m = eval e n) ∧ Plain m := by
      intro poly hpoly hfin
      obtain ⟨cs, rfl, st⟩ := stage1 o (simplify_plain o fuel) hn.1 (recFree_scaled hn.2) hpoly
      have hp := wrap_plain (st.plain hn.2)
      rw [finish_noRec o _ _ (fun c hc => recFree_children hp.2 hc)] at hfin
      cases ok_ok hfin
      exact ⟨fun e => by rw [eval_wrap, st.val], hp⟩
    unfold simplify at h
    split at h
    · obtain ⟨poly, hpoly, h⟩ := bind_ok h; exact main poly hpoly h
    · obtain ⟨poly, hpoly, h⟩ := bind_ok h; exact main poly hpoly h
    · obtain ⟨poly, hpoly, h⟩ := bind_ok h; exact main poly hpoly h
    · cases ok_ok h; exact ⟨fun e => rfl, hn⟩

theorem simplify_supported (o : Order) (fuel : Nat) {n m : Node} (hn : Supported false n)
    (hz : ScaledFromZero n) (hneg : NoLostNegation n) (hloop : NoLostLoop n)
    (h : simplify o fuel n = .ok m) : ∀ e, eval e m = eval e n := by
  cases fuel with
  | zero => cases h
  | succ fuel =>
    have main : ∀ poly, simplifyPolynomial o (simplify o fuel) n = .ok poly →
        finish o (simplify o fuel) poly = .ok m → ∀ e, eval e m = eval e n := by
      intro poly hpoly hfin
      obtain ⟨cs, rfl, st⟩ := stage1 o (simplify_plain o fuel) hn hz hpoly
      exact finish_spec o (simplify_plain o fuel) st hneg hloop hfin
    unfold simplify at h
    split at h
    · obtain ⟨poly, hpoly, h⟩ := bind_ok h; exact main poly hpoly h
    · obtain ⟨poly, hpoly, h⟩ := bind_ok h; exact main poly hpoly h
    · obtain ⟨poly, hpoly, h⟩ := bind_ok h; exact main poly hpoly h
    · cases ok_ok h; exact fun e => rfl

/-! ## Failures other than overflow -/

/-- The only way to fail is overflow. -/
def OO {α : Type} (x : Except Err α) : Prop := ∀ e, x = .error e → e = .overflow

theorem OO.ok {α : Type} (a : α) : OO (.ok a : Except Err α) := fun e h => by cases h

theorem OO.pure {α : Type} (a : α) : OO (Pure.pure a : Except Err α) := fun e h => by cases h

theorem OO.bind {α β : Type} {x : Except Err α} {f : α → Except Err β} (hx : OO x)
    (hf : ∀ a, x = .ok a → OO (f a)) : OO (x >>= f) := by
  intro e h
  cases x with
  | error e' =>
    simp only [Bind.bind, Except.bind, Except.error.injEq] at h
    exact h ▸ hx e' rfl
  | ok a => exact hf a rfl e h

theorem OO.i64 (x : Int) : OO (i64 x) := by
  intro e h
  unfold Verif.ScalarEvo.i64 at h
  split at h
  · cases h
  · cases h; rfl

theorem OO.createNegation (n : Node) : OO (createNegation n) := by
  unfold Verif.ScalarEvo.createNegation
  split
  · exact .ok _
  · exact (OO.i64 _).bind fun _ _ => .pure _
  · exact .ok _

theorem OO.createMultiply (a b : Node) : OO (createMultiply a b) := by
  unfold Verif.ScalarEvo.createMultiply
  split
  · exact .ok _
  · split
    · exact (OO.i64 _).bind fun _ _ => .pure _
    · exact .ok _

theorem OO.addTerm (o : Order) (t : Node) (v : Int) :
    ∀ ts : List (Node × Int), OO (addTerm o t v ts)
  | [] => .ok _
  | (s, w) :: rest => by
    unfold Verif.ScalarEvo.addTerm
    split
    · exact (OO.i64 _).bind fun _ _ => .pure _
    · split
      · exact .ok _
      · exact (OO.addTerm o t v rest).bind fun _ _ => .pure _

mutual
theorem OO.gather (o : Order) : ∀ (n : Node) (acc : Acc) (b : Bool), OO (gather o acc n b)
  | .const v, acc, b => by
    unfold Verif.ScalarEvo.gather
    exact (OO.i64 _).bind fun _ _ => (OO.i64 _).bind fun _ _ => .pure _
  | .unknown i, acc, b => by
    unfold Verif.ScalarEvo.gather
    exact (OO.addTerm o _ _ _).bind fun _ _ => .pure _
  | .recur l off coef, acc, b => by
    unfold Verif.ScalarEvo.gather
    exact (OO.addTerm o _ _ _).bind fun _ _ => .pure _
  | .mul x y, acc, b => by
    unfold Verif.ScalarEvo.gather
    simp only
    split
    · exact (OO.i64 _).bind fun _ _ => (OO.addTerm o _ _ _).bind fun _ _ => .pure _
    · exact .ok _
  | .add cs, acc, b => by
    unfold Verif.ScalarEvo.gather
    exact OO.gatherList o cs acc b
  | .neg a, acc, b => by
    unfold Verif.ScalarEvo.gather
    exact OO.gather o a acc (!b)
  | .cant, acc, b => by
    unfold Verif.ScalarEvo.gather
    exact .ok _
theorem OO.gatherList (o : Order) : ∀ (cs : List Node) (acc : Acc) (b : Bool),
    OO (gatherList o acc cs b)
  | [], acc, b => by unfold Verif.ScalarEvo.gatherList; exact .ok _
  | c :: cs, acc, b => by
    unfold Verif.ScalarEvo.gatherList
    exact (OO.gather o c acc b).bind fun x _ => OO.gatherList o cs x b
end

theorem OO.termChild {simp : Node → Except Err Node} {t : Node} {v : Int} (ht : Term t)
    (hs : RecFree t ∨ ∀ n, Plain n → OO (simp n)) : OO (termChild simp t v) := by
  unfold Verif.ScalarEvo.termChild
  split
  · exact .ok _
  · split
    · exact .ok _
    · split
      · exact (OO.createNegation _).bind fun _ _ => .pure _
      · split
        · rename_i l off coef _
          refine OO.bind ?_ fun _ _ => .pure _
          unfold updateCoefficient
          refine (OO.createMultiply _ _).bind fun x hx => ?_
          rcases hs with hs | hs
          · exact hs.elim
          · refine (hs _ (createMultiply_const hx (affine_plain ht.2))).bind fun y _ => ?_
            refine OO.bind ?_ fun _ _ => .pure _
            split
            · exact OO.createNegation _
            · exact .ok _
        · exact (OO.createMultiply _ _).bind fun _ _ => .pure _

theorem OO.addTerms (o : Order) {simp : Node → Except Err Node} :
    ∀ (ts : List (Node × Int)) (cs : List Node),
    (∀ p ∈ ts, Term p.1 ∧ (RecFree p.1 ∨ ∀ n, Plain n → OO (simp n))) → OO (addTerms o simp ts cs)
  | [], cs, _ => by unfold Verif.ScalarEvo.addTerms; exact .ok _
  | (t, v) :: ts, cs, h => by
    unfold Verif.ScalarEvo.addTerms
    have h1 := h (t, v) (by simp)
    refine (OO.termChild h1.1 h1.2).bind fun x _ => ?_
    cases x
    · exact OO.addTerms o ts cs (fun p hp => h p (by simp [hp]))
    · exact OO.addTerms o ts _ (fun p hp => h p (by simp [hp]))

theorem OO.simplifyPolynomial (o : Order) {simp : Node → Except Err Node} {n : Node}
    (hn : Supported false n) (hs : RecFree n ∨ ∀ n, Plain n → OO (simp n)) :
    OO (simplifyPolynomial o simp n) := by
  unfold Verif.ScalarEvo.simplifyPolynomial
  refine (OO.gather o n _ _).bind fun acc hacc => ?_
  have g := gather_spec o n {} acc false hacc hn (by simp)
  refine OO.bind ?_ fun _ _ => .pure _
  refine OO.addTerms o _ _ fun p hp => ?_
  rcases g.keys p.1 (List.mem_map.2 ⟨_, hp, rfl⟩) with h2 | h2
  · simp at h2
  · refine ⟨h2.1, ?_⟩
    rcases hs with hs | hs
    · exact .inl (h2.2 hs)
    · exact .inr hs

theorem OO.simplify_plain (o : Order) (fuel : Nat) {n : Node} (hn : Plain n) :
    OO (simplify o (fuel + 1) n) := by
  have main : OO (do
      let poly ← Verif.ScalarEvo.simplifyPolynomial o (simplify o fuel) n
      finish o (simplify o fuel) poly) := by
    refine (OO.simplifyPolynomial o hn.1 (.inl hn.2)).bind fun poly hpoly => ?_
    obtain ⟨cs, rfl, st⟩ := stage1 o (Verif.ScalarEvo.simplify_plain o fuel) hn.1
      (recFree_scaled hn.2) hpoly
    rw [finish_noRec o _ _ (fun c hc => recFree_children (wrap_plain (st.plain hn.2)).2 hc)]
    exact .ok _
  unfold Verif.ScalarEvo.simplify
  split
  · exact main
  · exact main
  · exact main
  · exact .ok _

theorem OO.sumRecurrents (o : Order) : ∀ (rs : List (Node × Node × Bool))
    (s : List Node × List Node), OO (sumRecurrents o rs s)
  | [], s => by unfold Verif.ScalarEvo.sumRecurrents; exact .ok _
  | (off, coef, b) :: rs, (coefs, offs) => by
    unfold Verif.ScalarEvo.sumRecurrents
    split
    · exact OO.sumRecurrents o rs _
    · exact (OO.createNegation _).bind fun _ _ => (OO.createNegation _).bind fun _ _ =>
        OO.sumRecurrents o rs _

theorem OO.foldGroups (o : Order) {simp : Node → Except Err Node}
    (hs : ∀ n, Plain n → OO (simp n)) : ∀ (g : Groups) (others : List Node), GoodGroups g →
    OO (foldGroups o simp g others)
  | [], others, _ => by unfold Verif.ScalarEvo.foldGroups; exact .ok _
  | (l, rs) :: g, others, hg => by
    unfold Verif.ScalarEvo.foldGroups
    refine (OO.sumRecurrents o rs _).bind fun ⟨coefs, offs⟩ hsum => ?_
    obtain ⟨_, _, i3, i4⟩ := sumRecurrents_spec o rs [] [] coefs offs (hg (l, rs) (by simp)).2 hsum
    refine (hs _ (plain_add (i3 (by simp)))).bind fun _ _ => ?_
    refine (hs _ (plain_add (i4 (by simp)))).bind fun _ _ => ?_
    split
    · exact .pure _
    · exact OO.foldGroups o hs g _ (fun p hp => hg p (by simp [hp]))

theorem OO.finish (o : Order) {simp : Node → Except Err Node} (hg : GoodSimp simp)
    (hs : ∀ n, Plain n → OO (simp n)) {n : Node} {cs : List Node} (h1 : Stage1 n cs)
    (hneg : NoLostNegation n) (hloop : NoLostLoop n) : OO (finish o simp (wrap cs)) := by
  rcases wrap_shape o h1.kids with hnr | ⟨hadd, hlen⟩
  · rw [finish_noRec o simp (wrap cs) hnr]
    exact .ok _
  rw [finish_eq, hadd]
  refine OO.bind ?_ fun folded hf => ?_
  · unfold foldRecurrents
    rcases hsp : splitRecurrents o cs ([], [], false) with ⟨others, groups, multiple⟩
    obtain ⟨s1, s2, s3, s4, s5, s6, s7⟩ := splitRecurrents_spec o cs [] [] false h1.kids
      (by intro p hp; simp at hp) _ _ _ hsp
    rw [show Node.children o (.add cs) = cs from rfl, hsp]
    simp only
    split
    · exact .pure _
    · refine (OO.foldGroups o hs groups others s3).bind fun r _ => ?_
      cases r <;> exact .pure _
  · obtain ⟨cs2, hw, k1, k2, k3, k4, k5⟩ := fold_shape o hg h1 hneg hloop hf
    have hw' : folded = wrap cs2 := by
      rcases hw with hw | ⟨hw, rfl⟩
      · exact hw
      · rw [hw, hadd]
    subst hw'
    unfold finishTail
    rw [eliminateZero_id o k1 k2]
    simp only
    split
    · exact .ok _
    · rename_i r hr
      obtain ⟨hrm, hrr⟩ := lastRecurrent_some hr
      split
      · exact .ok _
      · cases r <;> simp [Node.isRecur] at hrr
        rename_i l off coef _
        simp only
        have hoff : Plain off := by
          rcases wrap_shape o k1 with hnr | ⟨hadd2, _⟩
          · exact (hnr _ hrm).elim
          · rw [hadd2] at hrm
            rcases k1 _ hrm with hp | ⟨l', off', coef', heq, hpo, hpc⟩
            · exact hp.2.elim
            · cases heq; exact hpo
        have hpl : Plain (.add (offsetChildren o off ((Node.add cs).children o))) :=
          plain_add fun c hc => by
            simp only [offsetChildren, mem_addAll, List.mem_singleton] at hc
            rcases hc with hc | rfl
            · exact kid_nonRec h1.kids c hc
            · exact hoff
        unfold simplifyRecurrent
        refine (hs _ hpl).bind fun x hx => ?_
        have hx2 := (hg _ _ hpl hx).2
        have : x.isCant = false := by
          cases x with
          | cant => exact hx2.2.elim
          | _ => rfl
        rw [this]
        exact .pure _

theorem OO.simplify (o : Order) (fuel : Nat) {n : Node} (hn : Supported false n)
    (hz : ScaledFromZero n) (hneg : NoLostNegation n) (hloop : NoLostLoop n) :
    OO (simplify o (fuel + 2) n) := by
  have main : OO (do
      let poly ← Verif.ScalarEvo.simplifyPolynomial o (Verif.ScalarEvo.simplify o (fuel + 1)) n
      Verif.ScalarEvo.finish o (Verif.ScalarEvo.simplify o (fuel + 1)) poly) := by
    refine (OO.simplifyPolynomial o hn (.inr fun m hm => OO.simplify_plain o fuel hm)).bind
      fun poly hpoly => ?_
    obtain ⟨cs, rfl, st⟩ := stage1 o (Verif.ScalarEvo.simplify_plain o (fuel + 1)) hn hz hpoly
    exact OO.finish o (Verif.ScalarEvo.simplify_plain o (fuel + 1))
      (fun m hm => OO.simplify_plain o fuel hm) st hneg hloop
  unfold Verif.ScalarEvo.simplify
  split
  · exact main
  · exact main
  · exact main
  · exact .ok _

end Verif.ScalarEvo
