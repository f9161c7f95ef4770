import Verif.LoopDep.Spec
import Verif.ScalarEvo.Total

set_option linter.unusedSimpArgs false
set_option linter.unusedVariables false

/-!
# What simplification makes of sums of multiples of induction variables
-/

namespace Verif.LoopDep

open Verif.ScalarEvo
open Verif.ScalarEvo.Spec (Env eval evalSum Supported SupportedList Term Affine RecFree count
  countSum slope slopeSum)
open Verif.LoopDep.Spec (Linear LinearList Loop inductionVar)

/-- The induction variable of a loop from zero by one. -/
def unit (l : Nat) : Node := .recur l (.const 0) (.const 1)

/-- A constant, or a multiple of an induction variable. -/
def Item (ls : List Nat) (n : Node) : Prop :=
  (∃ v, n = .const v) ∨ ∃ l k, l ∈ ls ∧ k ≠ 0 ∧ n = .recur l (.const 0) (.const k)

/-- The result of simplification. -/
inductive Norm (ls : List Nat) : Node → Prop
  | const (v : Int) : Norm ls (.const v)
  | recur (l : Nat) (o k : Int) (hl : l ∈ ls) (hk : k ≠ 0) : Norm ls (.recur l (.const o) (.const k))
  | add (cs : List Node) (hi : ∀ c ∈ cs, Item ls c) (hd : (recLoops cs).Nodup)
      (h2 : 2 ≤ (recLoops cs).length) : Norm ls (.add cs)

/-- All loops start from zero and step by one. -/
def Units (loops : Nat → Loop) (ls : List Nat) : Prop :=
  ∀ l ∈ ls, (loops l).init = 0 ∧ (loops l).step = 1

theorem inductionVar_unit {loops : Nat → Loop} {ls : List Nat} (hu : Units loops ls) {l : Nat}
    (hl : l ∈ ls) : inductionVar loops l = unit l := by
  simp [inductionVar, unit, hu l hl]

/-- What has been gathered so far. -/
structure GInv (ls : List Nat) (a : Acc) : Prop where
  kept : a.kept = []
  keys : ∀ p ∈ a.terms, ∃ l ∈ ls, p.1 = unit l
  nodup : (a.terms.map (·.1)).Nodup

mutual
theorem linear_supported {loops : Nat → Loop} {ls : List Nat} (hu : Units loops ls) :
    ∀ (n : Node) (b : Bool), Linear loops ls n → Supported b n
  | .const _, _, _ => trivial
  | .unknown _, _, h => h.elim
  | .recur l off coef, _, h => by
    have := h.2; rw [inductionVar_unit hu h.1] at this; cases this
    exact ⟨trivial, trivial⟩
  | .add cs, b, h => linearList_supported hu cs b h
  | .mul x y, _, h => by
    rcases h with ⟨v, l, hl, rfl, rfl⟩ | ⟨v, l, hl, rfl, rfl⟩
    · exact .inl ⟨v, rfl, by rw [inductionVar_unit hu hl]; exact ⟨trivial, trivial⟩⟩
    · exact .inr (.inl ⟨v, rfl, by rw [inductionVar_unit hu hl]; exact ⟨trivial, trivial⟩⟩)
  | .neg a, b, h => linear_supported hu a (!b) h
  | .cant, _, h => h.elim
theorem linearList_supported {loops : Nat → Loop} {ls : List Nat} (hu : Units loops ls) :
    ∀ (cs : List Node) (b : Bool), LinearList loops ls cs → SupportedList b cs
  | [], _, _ => trivial
  | c :: cs, b, h => ⟨linear_supported hu c b h.1, linearList_supported hu cs b h.2⟩
end

theorem ginv_term {o : Order} {ls : List Nat} {acc : Acc} (hg : GInv ls acc) {l : Nat} (hl : l ∈ ls)
    {w : Int} {ts : List (Node × Int)} (h : addTerm o (unit l) w acc.terms = .ok ts) :
    GInv ls { acc with terms := ts } := by
  obtain ⟨_, _, h3, h4⟩ := addTerm_spec o _ _ acc.terms h hg.nodup
  refine ⟨hg.kept, fun p hp => ?_, h3⟩
  rcases (h4 p.1).1 (List.mem_map.2 ⟨p, hp, rfl⟩) with h5 | h5
  · exact ⟨l, hl, h5⟩
  · obtain ⟨q, hq, he⟩ := List.mem_map.1 h5
    obtain ⟨l', hl', h6⟩ := hg.keys q hq
    exact ⟨l', hl', by rw [← he, h6]⟩

mutual
theorem gather_linear (o : Order) {loops : Nat → Loop} {ls : List Nat} (hu : Units loops ls) :
    ∀ (n : Node) (acc acc' : Acc) (b : Bool), gather o acc n b = .ok acc' → Linear loops ls n →
      GInv ls acc → GInv ls acc'
  | .const v, acc, acc', b, h, _, hg => by
    unfold gather at h
    obtain ⟨x, hx, h⟩ := bind_ok h
    obtain ⟨y, hy, h⟩ := bind_ok h
    cases pure_ok h
    exact ⟨hg.kept, hg.keys, hg.nodup⟩
  | .unknown _, _, _, _, _, h, _ => h.elim
  | .recur l off coef, acc, acc', b, h, hn, hg => by
    have he := hn.2; rw [inductionVar_unit hu hn.1] at he
    unfold gather at h
    obtain ⟨x, hx, h⟩ := bind_ok h
    cases pure_ok h
    rw [he] at hx
    exact ginv_term hg hn.1 hx
  | .mul p q, acc, acc', b, h, hn, hg => by
    have hsp : ∃ l v, l ∈ ls ∧ splitMultiply o p q = some (unit l, v) := by
      rcases hn with ⟨v, l, hl, rfl, rfl⟩ | ⟨v, l, hl, rfl, rfl⟩
      · rw [inductionVar_unit hu hl]
        exact ⟨l, v, hl, splitMultiply_const_left o v rfl⟩
      · rw [inductionVar_unit hu hl]
        exact ⟨l, v, hl, splitMultiply_const_right o v rfl⟩
    obtain ⟨l, v, hl, hsp⟩ := hsp
    unfold gather at h
    simp only [hsp] at h
    obtain ⟨x, hx, h⟩ := bind_ok h
    obtain ⟨y, hy, h⟩ := bind_ok h
    cases pure_ok h
    exact ginv_term hg hl hy
  | .add cs, acc, acc', b, h, hn, hg => by
    unfold gather at h
    exact gatherList_linear o hu cs acc acc' b h hn hg
  | .neg a, acc, acc', b, h, hn, hg => by
    unfold gather at h
    exact gather_linear o hu a acc acc' (!b) h hn hg
  | .cant, _, _, _, _, h, _ => h.elim
theorem gatherList_linear (o : Order) {loops : Nat → Loop} {ls : List Nat} (hu : Units loops ls) :
    ∀ (cs : List Node) (acc acc' : Acc) (b : Bool), gatherList o acc cs b = .ok acc' →
      LinearList loops ls cs → GInv ls acc → GInv ls acc'
  | [], acc, acc', b, h, _, hg => by
    unfold gatherList at h
    cases ok_ok h; exact hg
  | c :: cs, acc, acc', b, h, hn, hg => by
    unfold gatherList at h
    obtain ⟨x, hx, h⟩ := bind_ok h
    exact gatherList_linear o hu cs x acc' b h hn.2 (gather_linear o hu c acc x b hx hn.1 hg)
end

theorem simplify_const {o : Order} {fuel : Nat} {v : Int} {m : Node}
    (h : simplify o fuel (.const v) = .ok m) : m = .const v := by
  cases fuel with
  | zero => cases h
  | succ fuel => unfold simplify at h; exact (ok_ok h).symm

theorem simplify_recur {o : Order} {fuel : Nat} {l : Nat} {a b m : Node}
    (h : simplify o fuel (.recur l a b) = .ok m) : m = .recur l a b := by
  cases fuel with
  | zero => cases h
  | succ fuel => unfold simplify at h; exact (ok_ok h).symm

theorem termChild_unit {o : Order} {fuel : Nat} {l : Nat} {v : Int} {c : Option Node}
    (h : termChild (simplify o fuel) (unit l) v = .ok c) :
    (v = 0 ∧ c = none) ∨ (v ≠ 0 ∧ c = some (.recur l (.const 0) (.const v))) := by
  unfold termChild at h
  split at h
  · cases ok_ok h; exact .inl ⟨‹_›, rfl⟩
  · rename_i h0
    refine .inr ⟨h0, ?_⟩
    split at h
    · rename_i h1; subst h1; cases ok_ok h; rfl
    · split at h
      · rename_i h1; simp [unit, Node.isRecur] at h1
      · simp only [unit] at h
        obtain ⟨n, hn, h⟩ := bind_ok h
        cases pure_ok h
        unfold updateCoefficient at hn
        obtain ⟨nc, hnc, hn⟩ := bind_ok hn
        obtain ⟨sm, hsm, hn⟩ := bind_ok hn
        obtain ⟨no, hno, hn⟩ := bind_ok hn
        cases pure_ok hn
        have e1 : nc = .const v := by
          unfold createMultiply at hnc
          simp only [Node.isCant, Bool.or_self, Bool.false_eq_true, if_false] at hnc
          obtain ⟨x, hx, hnc⟩ := bind_ok hnc
          cases pure_ok hnc
          rw [i64_ok hx]; simp
        subst e1
        cases simplify_const hsm
        have e2 : no = .const 0 := by
          split at hno
          · unfold createNegation at hno
            simp only at hno
            obtain ⟨x, hx, hno⟩ := bind_ok hno
            cases pure_ok hno
            rw [i64_ok hx]; rfl
          · exact (ok_ok hno).symm
        subst e2
        simp [Node.isCant]

/-- The children of the new addition while the terms are added. -/
theorem addTerms_unit (o : Order) (fuel : Nat) (ls : List Nat) :
    ∀ (ts : List (Node × Int)) (cs cs' : List Node),
      addTerms o (simplify o fuel) ts cs = .ok cs' →
      (∀ p ∈ ts, ∃ l ∈ ls, p.1 = unit l) → (ts.map (·.1)).Nodup →
      (∀ c ∈ cs, Item ls c) → (recLoops cs).Nodup → (∀ p ∈ ts, ∀ l, p.1 = unit l → l ∉ recLoops cs) →
      (∀ e, evalSum e cs' = evalSum e cs + termSum e ts) ∧ (∀ c ∈ cs', Item ls c) ∧
      (recLoops cs').Nodup ∧ (nonRec cs').length = (nonRec cs).length
  | [], cs, cs', h, _, _, hi, hd, _ => by
    unfold addTerms at h
    cases ok_ok h
    exact ⟨fun e => by simp [termSum], hi, hd, rfl⟩
  | (t, v) :: rest, cs, cs', h, hk, hn, hi, hd, hf => by
    obtain ⟨l, hl, ht⟩ := hk (t, v) (by simp)
    simp only at ht
    subst ht
    simp only [List.map_cons, List.nodup_cons] at hn
    unfold addTerms at h
    obtain ⟨c, hc, h⟩ := bind_ok h
    have hk' : ∀ p ∈ rest, ∃ l ∈ ls, p.1 = unit l := fun p hp => hk p (by simp [hp])
    rcases termChild_unit hc with ⟨rfl, rfl⟩ | ⟨h0, rfl⟩
    · have ih := addTerms_unit o fuel ls rest cs cs' h hk' hn.2 hi hd
        (fun p hp => hf p (by simp [hp]))
      simpa [termSum] using ih
    · simp only at h
      have hnew : l ∉ recLoops cs := hf (unit l, v) (by simp) l rfl
      have hperm := recLoops_addChild o (.recur l (.const 0) (.const v)) cs
      have ih := addTerms_unit o fuel ls rest _ cs' h hk' hn.2
        (fun c hc => by
          rcases (mem_addChild o _ _ _).1 hc with rfl | hc
          · exact .inr ⟨l, v, hl, h0, rfl⟩
          · exact hi c hc)
        (by
          rw [hperm.nodup_iff]
          exact List.nodup_cons.2 ⟨hnew, hd⟩)
        (fun p hp l' hp' hm => by
          rcases List.mem_cons.1 (hperm.mem_iff.1 hm) with rfl | hm
          · exact hn.1 (by rw [← hp']; exact List.mem_map.2 ⟨p, hp, rfl⟩)
          · exact hf p (by simp [hp]) l' hp' hm)
      obtain ⟨i1, i2, i3, i4⟩ := ih
      refine ⟨fun e => ?_, i2, i3, ?_⟩
      · rw [i1, evalSum_addChild]
        simp only [termSum, eval, unit, Int.add_zero, Int.one_mul]; omega
      · rw [i4, nonRec, ((addChild_perm o _ cs).filter _).length_eq]
        simp [nonRec, Node.isRecur]

theorem item_loop {ls : List Nat} {c : Node} (h : Item ls c) :
    (c.isRecur = false ∧ (∃ v, c = .const v) ∧ loop? c = none) ∨
    (c.isRecur = true ∧ ∃ l k, l ∈ ls ∧ k ≠ 0 ∧ c = .recur l (.const 0) (.const k)) := by
  rcases h with ⟨v, rfl⟩ | ⟨l, k, hl, hk, rfl⟩
  · exact .inl ⟨rfl, ⟨v, rfl⟩, rfl⟩
  · exact .inr ⟨rfl, l, k, hl, hk, rfl⟩

/-- Children of different loops are not folded. -/
theorem splitRecurrents_items (o : Order) {ls : List Nat} :
    ∀ (cs others : List Node) (g : Groups), (∀ c ∈ cs, Item ls c) → (recLoops cs).Nodup →
      (∀ l ∈ recLoops cs, l ∉ g.map (·.1)) →
      (splitRecurrents o cs (others, g, false)).2.2 = false
  | [], _, _, _, _, _ => rfl
  | c :: cs, others, g, hi, hd, hf => by
    rcases hi c (by simp) with ⟨v, rfl⟩ | ⟨l, k, hl, hk, rfl⟩
    · simp only [splitRecurrents, stripNegation]
      exact splitRecurrents_items o cs _ g (fun c hc => hi c (by simp [hc])) hd hf
    · have hd' : l ∉ recLoops cs ∧ (recLoops cs).Nodup := List.nodup_cons.1 hd
      have hg : l ∉ g.map (·.1) := hf l (List.mem_cons_self ..)
      have key : ∀ (g : Groups), l ∉ g.map (·.1) →
          (addRecurrent o l (.const 0, .const k, false) g).2 = false ∧
          ∀ l', l' ∈ (addRecurrent o l (.const 0, .const k, false) g).1.map (·.1) →
            l' = l ∨ l' ∈ g.map (·.1) := by
        intro g
        induction g with
        | nil => intro _; simp [addRecurrent]
        | cons p g ih =>
          obtain ⟨l1, rs⟩ := p
          intro hn
          simp only [List.map_cons, List.mem_cons, not_or] at hn
          have ih := ih hn.2
          unfold addRecurrent
          rw [if_neg (fun h => hn.1 h.symm)]
          split
          · simp
          · refine ⟨ih.1, fun l' hl' => ?_⟩
            simp only [List.map_cons, List.mem_cons] at hl' ⊢
            rcases hl' with h | h
            · exact .inr (.inl h)
            · rcases ih.2 l' h with h | h
              · exact .inl h
              · exact .inr (.inr h)
      simp only [splitRecurrents, stripNegation, (key g hg).1, Bool.or_self]
      refine splitRecurrents_items o cs others _ (fun c hc => hi c (by simp [hc])) hd'.2
        fun l' hl' hm => ?_
      rcases (key g hg).2 l' hm with rfl | h
      · exact hd'.1 hl'
      · exact hf l' (List.mem_cons_of_mem _ hl') h

theorem recurrentsList_items {ls : List Nat} : ∀ {cs : List Node}, (∀ c ∈ cs, Item ls c) →
    Node.recurrentsList cs = onlyRec cs
  | [], _ => rfl
  | c :: cs, h => by
    have ih := recurrentsList_items (fun c hc => h c (List.mem_cons_of_mem _ hc))
    rcases h c (by simp) with ⟨v, rfl⟩ | ⟨l, k, _, _, rfl⟩ <;>
      simp [Node.recurrentsList, Node.recurrents, onlyRec, Node.isRecur, ih, List.filter_cons] at ih ⊢ <;>
      simpa [onlyRec] using ih

/-- A sum of constants becomes a constant. -/
theorem gatherList_consts (o : Order) : ∀ (cs : List Node) (acc acc' : Acc),
    (∀ c ∈ cs, ∃ v, c = .const v) → gatherList o acc cs false = .ok acc' →
    acc'.kept = acc.kept ∧ acc'.terms = acc.terms
  | [], acc, acc', _, h => by unfold gatherList at h; cases ok_ok h; exact ⟨rfl, rfl⟩
  | c :: cs, acc, acc', hc, h => by
    obtain ⟨v, rfl⟩ := hc c (by simp)
    unfold gatherList at h
    obtain ⟨x, hx, h⟩ := bind_ok h
    have ih := gatherList_consts o cs x acc' (fun c h => hc c (by simp [h])) h
    unfold gather at hx
    obtain ⟨y, hy, hx⟩ := bind_ok hx
    obtain ⟨z, hz, hx⟩ := bind_ok hx
    cases pure_ok hx
    exact ih

theorem simplify_consts {o : Order} {fuel : Nat} {cs : List Node} {m : Node}
    (hc : ∀ c ∈ cs, ∃ v, c = .const v) (h : simplify o fuel (.add cs) = .ok m) :
    ∃ v, m = .const v ∧ ∀ e, evalSum e cs = v := by
  have hp : Plain (.add cs) := plain_add fun c h => by
    obtain ⟨v, rfl⟩ := hc c h; exact ⟨trivial, trivial⟩
  have hv := (simplify_plain o fuel _ _ hp h).1
  have : ∃ v, m = .const v := by
    cases fuel with
    | zero => cases h
    | succ fuel =>
      unfold simplify at h
      simp only at h
      obtain ⟨poly, hpoly, h⟩ := bind_ok h
      unfold simplifyPolynomial at hpoly
      obtain ⟨acc, hacc, hpoly⟩ := bind_ok hpoly
      obtain ⟨cs', hcs', hpoly⟩ := bind_ok hpoly
      cases pure_ok hpoly
      unfold gather at hacc
      obtain ⟨h1, h2⟩ := gatherList_consts o cs {} acc hc hacc
      simp only at h1 h2
      rw [h1, h2] at hcs'
      unfold addTerms at hcs'
      have hk := ok_ok hcs'
      have hw : ∃ v, wrap cs' = .const v := by
        rw [← hk]; split
        · exact ⟨_, rfl⟩
        · exact ⟨_, rfl⟩
      obtain ⟨v, hw⟩ := hw
      rw [hw, finish_noRec o _ _ (by simp [Node.children])] at h
      exact ⟨v, (ok_ok h).symm⟩
  obtain ⟨v, rfl⟩ := this
  exact ⟨v, rfl, fun e => by rw [show evalSum e cs = eval e (.add cs) from rfl, ← hv e]; rfl⟩

theorem lastRecurrent_none_iff {cs : List Node} (h : lastRecurrent cs = none) :
    ∀ c ∈ cs, c.isRecur = false := by
  induction cs with
  | nil => simp
  | cons c cs ih =>
    unfold lastRecurrent at h
    split at h
    · cases h
    · rename_i hn
      split at h
      · cases h
      · rename_i hcr
        intro d hd
        rcases List.mem_cons.1 hd with rfl | hd
        · simpa using hcr
        · exact ih hn d hd

theorem recLoops_length (cs : List Node) : (recLoops cs).length = (onlyRec cs).length := by
  induction cs with
  | nil => rfl
  | cons c cs ih =>
    simp only [recLoops, onlyRec] at ih ⊢
    cases c <;> simp [List.filterMap_cons, loop?, List.filter_cons, Node.isRecur, ih]

theorem recLoops_onlyRec (cs : List Node) : recLoops cs = recLoops (onlyRec cs) := by
  induction cs with
  | nil => rfl
  | cons c cs ih =>
    simp only [recLoops, onlyRec] at ih ⊢
    cases c <;> simp [List.filterMap_cons, loop?, List.filter_cons, Node.isRecur, ih]

theorem parts_length (cs : List Node) : cs.length = (nonRec cs).length + (onlyRec cs).length := by
  induction cs with
  | nil => rfl
  | cons c cs ih =>
    simp only [nonRec, onlyRec] at ih ⊢
    cases h : c.isRecur <;> simp [List.filter_cons, h, ih] <;> omega

/-- The second stage. -/
theorem finish_items (o : Order) (fuel : Nat) {ls : List Nat} {cs : List Node} {m : Node}
    (hi : ∀ c ∈ cs, Item ls c) (hd : (recLoops cs).Nodup) (hn : (nonRec cs).length ≤ 1)
    (h : finish o (simplify o fuel) (wrap cs) = .ok m) :
    Norm ls m ∧ ∀ e, eval e m = evalSum e cs := by
  match cs, hi, hd, hn, h with
  | [], _, _, _, h =>
    rw [wrap, finish_noRec o _ _ (by simp [Node.children])] at h
    cases ok_ok h
    exact ⟨.const 0, fun e => rfl⟩
  | [c], hi, _, _, h =>
    rcases hi c (by simp) with ⟨v, rfl⟩ | ⟨l, k, hl, hk, rfl⟩
    · rw [wrap, finish_noRec o _ _ (by simp [Node.children])] at h
      cases ok_ok h
      exact ⟨.const v, fun e => by simp [eval, evalSum]⟩
    · have : finish o (simplify o fuel) (.recur l (.const 0) (.const k)) =
          .ok (.recur l (.const 0) (.const k)) := by
        have hc : ∀ c ∈ (Node.recur l (.const 0) (.const k)).children o, RecFree c := by
          intro c hc
          simp only [Node.children] at hc
          rcases (mem_addChild o _ _ _).1 hc with rfl | hc
          · trivial
          · simp at hc; subst hc; trivial
        rw [finish_noRec o _ _ hc]
      rw [wrap, this] at h
      cases ok_ok h
      exact ⟨.recur l 0 k hl hk, fun e => by simp [eval, evalSum]⟩
  | c1 :: c2 :: cs, hi, hd, hn, h =>
    generalize hcs : c1 :: c2 :: cs = ds at hi hd hn h
    have hw : wrap ds = .add ds := by subst hcs; rfl
    have hlen : 2 ≤ ds.length := by subst hcs; simp
    clear hcs
    rw [hw] at h
    unfold finish at h
    have hf : foldRecurrents o (simplify o fuel) (.add ds) = .ok (.add ds) := by
      unfold foldRecurrents
      simp only [Node.children]
      have := splitRecurrents_items o ds [] [] hi hd (by simp)
      simp [this, pure, Except.pure]
    rw [hf] at h
    obtain ⟨x, hx, h⟩ := bind_ok h
    cases ok_ok hx
    have hz : eliminateZero o (.add ds) = .add ds := by
      simp only [eliminateZero]
      rw [if_neg]
      simp only [List.any_eq_true, not_exists, not_and]
      intro c hc
      rcases hi c hc with ⟨v, rfl⟩ | ⟨l, k, hl, hk, rfl⟩
      · simp [isZeroRecurrent]
      · unfold isZeroRecurrent
        split
        · rename_i heq; cases heq; exact (hk rfl).elim
        · simp
    simp only [hz, Node.children] at h
    have hpl := parts_length ds
    rw [← recLoops_length] at hpl
    split at h
    · rename_i hl
      exfalso
      have h0 := lastRecurrent_none_iff hl
      have : nonRec ds = ds := List.filter_eq_self.2 (fun c hc => by simp [h0 c hc])
      rw [this] at hn; omega
    · rename_i r hr
      obtain ⟨hrm, hrr⟩ := lastRecurrent_some hr
      split at h
      · rename_i hany
        cases pure_ok h
        refine ⟨.add ds hi hd ?_, fun e => rfl⟩
        simp only [List.any_eq_true, Node.recurrents, recurrentsList_items hi, decide_eq_true_eq] at hany
        obtain ⟨r', hr', hne⟩ := hany
        have hrm' : r ∈ onlyRec ds := List.mem_filter.2 ⟨hrm, hrr⟩
        rw [recLoops_length]
        match hO : onlyRec ds, hr', hrm' with
        | [], h1, _ => simp at h1
        | [a], h1, h2 => simp at h1 h2; exact (hne (h1.trans h2.symm)).elim
        | _ :: _ :: _, _, _ => simp
      · rename_i hany
        obtain ⟨l, k, hl, hk, rfl⟩ : ∃ l k, l ∈ ls ∧ k ≠ 0 ∧ r = .recur l (.const 0) (.const k) := by
          rcases hi r hrm with ⟨v, rfl⟩ | hx
          · cases hrr
          · exact hx
        simp only at h
        unfold simplifyRecurrent at h
        obtain ⟨s, hs, h⟩ := bind_ok h
        obtain ⟨v, rfl, hv⟩ := simplify_consts (cs := offsetChildren o (.const 0) ds) (by
          intro c hc
          unfold offsetChildren at hc
          rcases (mem_addAll o _ _ _).1 hc with hc | hc
          · obtain ⟨h1, h2⟩ := List.mem_filter.1 hc
            rcases hi c h1 with h3 | ⟨l, k, _, _, rfl⟩
            · exact h3
            · simp [Node.isRecur] at h2
          · simp at hc; exact ⟨0, hc⟩) hs
        simp only [Node.isCant, Bool.false_eq_true, if_false] at h
        cases pure_ok h
        refine ⟨.recur l v k hl hk, fun e => ?_⟩
        have honly : onlyRec ds = [.recur l (.const 0) (.const k)] := by
          have hall : ∀ r' ∈ onlyRec ds, r' = .recur l (.const 0) (.const k) := by
            intro r' hr'
            simp only [List.any_eq_true, Node.recurrents, recurrentsList_items hi, decide_eq_true_eq,
              not_exists, not_and, ne_eq, Classical.not_not] at hany
            exact hany r' hr'
          have hl1 : (onlyRec ds).length ≤ 1 := by
            have hnd := hd
            match hO : onlyRec ds, hall with
            | [], _ => simp
            | [_], _ => simp
            | a :: b :: t, hall =>
              exfalso
              have ha := hall a (by simp)
              have hb := hall b (by simp)
              rw [recLoops_onlyRec, hO, ha, hb] at hnd
              simp [recLoops, loop?] at hnd
          match hO : onlyRec ds, hall, hl1 with
          | [], _, _ =>
            have : Node.recur l (.const 0) (.const k) ∈ onlyRec ds := List.mem_filter.2 ⟨hrm, rfl⟩
            rw [hO] at this; cases this
          | [a], hall, _ => rw [hall a (by simp)]
        have hve := hv e
        unfold offsetChildren at hve
        rw [evalSum_addAll] at hve
        rw [evalSum_parts, honly]
        simp only [evalSum, eval, nonRec] at hve ⊢
        omega

/-- The shape and the value of a simplified sum of multiples of induction variables. -/
theorem simplify_linear (o : Order) (fuel : Nat) {loops : Nat → Loop} {ls : List Nat}
    (hu : Units loops ls) {n m : Node} (hn : Linear loops ls n) (h : simplify o fuel n = .ok m) :
    Norm ls m ∧ ∀ e, eval e m = eval e n := by
  cases fuel with
  | zero => cases h
  | succ fuel =>
    have main : ∀ poly, simplifyPolynomial o (simplify o fuel) n = .ok poly →
        finish o (simplify o fuel) poly = .ok m → Norm ls m ∧ ∀ e, eval e m = eval e n := by
      intro poly hpoly hfin
      unfold simplifyPolynomial at hpoly
      obtain ⟨acc, hacc, hpoly⟩ := bind_ok hpoly
      obtain ⟨cs', hcs', hpoly⟩ := bind_ok hpoly
      cases pure_ok hpoly
      have hG := gather_linear o hu n {} acc false hacc hn ⟨rfl, by simp, by simp⟩
      have hV := (gather_spec o n {} acc false hacc (linear_supported hu n false hn) (by simp)).val
      have hv : ∀ e, acc.const + termSum e acc.terms = eval e n := by
        intro e
        have := hV e
        simp only [Acc.val, hG.kept, evalSum, termSum, sgn] at this
        simp at this; omega
      rw [hG.kept] at hcs'
      obtain ⟨h1, h2, h3, h4⟩ := addTerms_unit o fuel ls acc.terms _ cs' hcs' hG.keys hG.nodup
        (by split
            · intro c hc; simp [addChild] at hc; exact .inl ⟨_, hc⟩
            · simp)
        (by split <;> simp [addChild, recLoops, List.filterMap_cons, loop?])
        (by intro p _ l _; split <;> simp [addChild, recLoops, List.filterMap_cons, loop?])
      have h5 : (nonRec cs').length ≤ 1 := by
        rw [h4]; split <;> simp [addChild, nonRec, Node.isRecur]
      obtain ⟨r1, r2⟩ := finish_items o fuel h2 h3 h5 hfin
      refine ⟨r1, fun e => ?_⟩
      rw [r2, h1, ← hv e]
      split
      · simp [addChild, evalSum, eval]
      · rename_i h0
        have : acc.const = 0 := by simpa using h0
        simp [evalSum, this]
    unfold simplify at h
    split at h
    · obtain ⟨poly, hpoly, h⟩ := bind_ok h; exact main poly hpoly h
    · obtain ⟨poly, hpoly, h⟩ := bind_ok h; exact main poly hpoly h
    · obtain ⟨poly, hpoly, h⟩ := bind_ok h; exact main poly hpoly h
    · cases ok_ok h
      refine ⟨?_, fun e => rfl⟩
      cases n with
      | const v => exact .const v
      | recur l off coef =>
        have := hn.2; rw [inductionVar_unit hu hn.1] at this; rw [this]
        exact .recur l 0 1 hn.1 (by decide)
      | unknown => exact hn.elim
      | cant => exact hn.elim
      | add => simp_all
      | mul => simp_all
      | neg => simp_all

end Verif.LoopDep
