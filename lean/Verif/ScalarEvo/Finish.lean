import Verif.ScalarEvo.Stages

set_option linter.unusedSimpArgs false
set_option linter.unusedVariables false

namespace Verif.ScalarEvo

open Spec

/-- The children which are not recurrent expressions. -/
def nonRec (cs : List Node) : List Node := cs.filter fun c => !c.isRecur

/-- The recurrent expressions among the children. -/
def onlyRec (cs : List Node) : List Node := cs.filter fun c => c.isRecur

theorem evalSum_parts (e : Env) (cs : List Node) :
    evalSum e cs = evalSum e (nonRec cs) + evalSum e (onlyRec cs) := by
  induction cs with
  | nil => rfl
  | cons c cs ih =>
    simp only [nonRec, onlyRec] at ih
    cases h : c.isRecur
    · simp [nonRec, onlyRec, List.filter_cons, h, evalSum, ih]; omega
    · simp [nonRec, onlyRec, List.filter_cons, h, evalSum, ih]; omega

theorem evalSum_nonRec_addChild (o : Order) (e : Env) (c : Node) (cs : List Node) :
    evalSum e (nonRec (addChild o c cs)) =
      (if c.isRecur then 0 else eval e c) + evalSum e (nonRec cs) := by
  induction cs with
  | nil => cases h : c.isRecur <;> simp [addChild, nonRec, List.filter_cons, h, evalSum]
  | cons d ds ih =>
    unfold addChild
    split
    · simp only [nonRec] at ih
      cases hd : d.isRecur <;> simp [nonRec, List.filter_cons, hd, evalSum, ih]
      omega
    · cases h : c.isRecur <;> simp [nonRec, List.filter_cons, h, evalSum]

theorem kid_nonRec {cs : List Node} (h : ∀ c ∈ cs, Kid c) : ∀ c ∈ nonRec cs, Plain c := by
  intro c hc
  obtain ⟨h1, h2⟩ := List.mem_filter.1 hc
  rcases h c h1 with h3 | ⟨l, off, coef, rfl, _⟩
  · exact h3
  · simp [Node.isRecur] at h2

/-! ## Groups -/

/-- The value of the recurrent expressions of one loop. -/
def groupEval (e : Env) (l : Nat) : List (Node × Node × Bool) → Int
  | [] => 0
  | (off, coef, _) :: rest => eval e coef * e.iteration l + eval e off + groupEval e l rest

/-- The sum of the coefficients of one loop. -/
def groupSlope (e : Env) : List (Node × Node × Bool) → Int
  | [] => 0
  | (_, coef, _) :: rest => eval e coef + groupSlope e rest

def groupsEval (e : Env) : Groups → Int
  | [] => 0
  | (l, rs) :: rest => groupEval e l rs + groupsEval e rest

/-- The sum of the coefficients of loop `l` in all groups. -/
def groupsSlope (e : Env) (l : Nat) : Groups → Int
  | [] => 0
  | (l', rs) :: rest => (if l' = l then groupSlope e rs else 0) + groupsSlope e l rest

theorem groupEval_append (e : Env) (l : Nat) (xs ys : List (Node × Node × Bool)) :
    groupEval e l (xs ++ ys) = groupEval e l xs + groupEval e l ys := by
  induction xs with
  | nil => simp [groupEval]
  | cons x xs ih => obtain ⟨a, b, c⟩ := x; simp [groupEval, ih]; omega

theorem groupSlope_append (e : Env) (xs ys : List (Node × Node × Bool)) :
    groupSlope e (xs ++ ys) = groupSlope e xs + groupSlope e ys := by
  induction xs with
  | nil => simp [groupSlope]
  | cons x xs ih => obtain ⟨a, b, c⟩ := x; simp [groupSlope, ih]; omega

/-- The members of groups have plain offsets and coefficients and are not negated. -/
def GoodGroups (g : Groups) : Prop :=
  ∀ p ∈ g, p.2 ≠ [] ∧ ∀ r ∈ p.2, Plain r.1 ∧ Plain r.2.1 ∧ r.2.2 = false

theorem addRecurrent_spec (o : Order) (l : Nat) (off coef : Node) (hoff : Plain off)
    (hcoef : Plain coef) : ∀ g : Groups, GoodGroups g →
    (∀ e, groupsEval e (addRecurrent o l (off, coef, false) g).1 =
      groupsEval e g + eval e (.recur l off coef)) ∧
    (∀ e l', groupsSlope e l' (addRecurrent o l (off, coef, false) g).1 =
      groupsSlope e l' g + slope e l' (.recur l off coef)) ∧
    GoodGroups (addRecurrent o l (off, coef, false) g).1 ∧
    (∀ l', l' ∈ (addRecurrent o l (off, coef, false) g).1.map (·.1) ↔ l' = l ∨ l' ∈ g.map (·.1)) ∧
    ((g.map (·.1)).Nodup → ((addRecurrent o l (off, coef, false) g).1.map (·.1)).Nodup) ∧
    ((addRecurrent o l (off, coef, false) g).2 = true ↔ l ∈ g.map (·.1))
  | [], _ => by
    refine ⟨fun e => ?_, fun e l' => ?_, ?_, by simp [addRecurrent], by simp [addRecurrent],
      by simp [addRecurrent]⟩
    · simp [addRecurrent, groupsEval, groupEval, eval]
    · simp [addRecurrent, groupsSlope, groupSlope, slope]
    · intro p hp
      simp only [addRecurrent, List.mem_singleton] at hp
      subst hp
      simp [hoff, hcoef]
  | (l', rs) :: rest, hg => by
    have hg' : GoodGroups rest := fun p hp => hg p (by simp [hp])
    unfold addRecurrent
    split
    · rename_i heq
      subst heq
      refine ⟨fun e => ?_, fun e l2 => ?_, ?_, by simp, by simp, by simp⟩
      · simp [groupsEval, groupEval_append, groupEval, eval]; omega
      · simp only [groupsSlope, groupSlope_append, groupSlope, slope]
        split <;> omega
      · intro p hp
        rcases List.mem_cons.1 hp with rfl | hp
        · refine ⟨by simp, fun r hr => ?_⟩
          rcases List.mem_append.1 hr with hr | hr
          · exact (hg (l', rs) (by simp)).2 r hr
          · simp only [List.mem_singleton] at hr
            subst hr
            exact ⟨hoff, hcoef, rfl⟩
        · exact hg' p hp
    · rename_i hne
      split
      · rename_i hc
        have hnot : l ∉ rest.map (·.1) := fun hm => by
          obtain ⟨p, hp, hpe⟩ := List.mem_map.1 hm
          exact hc.2 p hp hpe
        refine ⟨fun e => ?_, fun e l2 => ?_, ?_, by simp, fun hd => ?_, ?_⟩
        · simp [groupsEval, groupEval, eval]; omega
        · simp only [groupsSlope, groupSlope, slope]
          split <;> omega
        · intro p hp
          rcases List.mem_cons.1 hp with rfl | hp
          · simp [hoff, hcoef]
          · exact hg p hp
        · simp only [List.map_cons] at hd ⊢
          rw [List.nodup_cons]
          refine ⟨fun hm => ?_, hd⟩
          rcases List.mem_cons.1 hm with h1 | h1
          · exact hne h1.symm
          · exact hnot h1
        · simp only [List.map_cons, List.mem_cons]
          constructor
          · intro h; cases h
          · rintro (h | h)
            · exact (hne h.symm).elim
            · exact (hnot h).elim
      · obtain ⟨i1, i2, i3, i4, i5, i6⟩ := addRecurrent_spec o l off coef hoff hcoef rest hg'
        refine ⟨fun e => ?_, fun e l2 => ?_, ?_, fun l2 => ?_, fun hd => ?_, ?_⟩
        · simp only [groupsEval, i1]; omega
        · simp only [groupsSlope, i2]; omega
        · intro p hp
          rcases List.mem_cons.1 hp with rfl | hp
          · exact hg _ (by simp)
          · exact i3 p hp
        · simp only [List.map_cons, List.mem_cons, i4]; grind
        · simp only [List.map_cons, List.nodup_cons] at hd ⊢
          refine ⟨fun hm => ?_, i5 hd.2⟩
          rcases (i4 l').1 hm with h1 | h1
          · exact hne h1
          · exact hd.1 h1
        · simp only [i6, List.map_cons, List.mem_cons]
          constructor
          · exact .inr
          · rintro (h | h)
            · exact (hne h.symm).elim
            · exact h

theorem splitRecurrents_spec (o : Order) : ∀ (cs others : List Node) (g : Groups) (m : Bool),
    (∀ c ∈ cs, Kid c) → GoodGroups g →
    ∀ others' g' m', splitRecurrents o cs (others, g, m) = (others', g', m') →
    (∀ e, groupsEval e g' = groupsEval e g + evalSum e (onlyRec cs)) ∧
    (∀ e l, groupsSlope e l g' = groupsSlope e l g + slopeSum e l cs) ∧
    GoodGroups g' ∧
    ((g.map (·.1)).Nodup → (g'.map (·.1)).Nodup) ∧
    (∀ l, l ∈ g'.map (·.1) ↔ l ∈ g.map (·.1) ∨ l ∈ recLoops cs) ∧
    (m' = false ↔ m = false ∧ (recLoops cs).Nodup ∧ ∀ l ∈ recLoops cs, l ∉ g.map (·.1)) ∧
    ((∀ a, .neg a ∉ cs) → (∀ e, evalSum e others' = evalSum e others + evalSum e (nonRec cs)) ∧
      ∀ c ∈ others', c ∈ others ∨ Plain c)
  | [], others, g, m, _, hg, others', g', m', h => by
    cases h
    refine ⟨fun e => by simp [onlyRec, evalSum], fun e l => by simp [slopeSum], hg, id,
      fun l => by simp [recLoops], by simp [recLoops], fun _ => ⟨fun e => ?_, fun c hc => .inl hc⟩⟩
    simp [nonRec, evalSum]
  | c :: cs, others, g, m, hk, hg, others', g', m', h => by
    have hk' := fun d hd => hk d (List.mem_cons_of_mem c hd)
    rcases hk c (by simp) with hp | ⟨l, off, coef, rfl, hpo, hpc⟩
    · have hstrip : ∃ s b, stripNegation c = (s, b) ∧ RecFree s ∧ ((∀ a, c ≠ .neg a) → s = c) := by
        refine ⟨_, _, rfl, stripNegation_recFree hp.2, fun hn => ?_⟩
        cases c with
        | neg a => exact (hn a rfl).elim
        | _ => rfl
      obtain ⟨s, b, hs, hsr, hsc⟩ := hstrip
      have hnr : c.isRecur = false := plain_not_recur hp
      have hl : recLoops (c :: cs) = recLoops cs := by
        cases c with
        | recur => exact hp.2.elim
        | _ => simp [recLoops, List.filterMap_cons, loop?]
      have heq : splitRecurrents o (c :: cs) (others, g, m) =
          splitRecurrents o cs (addChild o s others, g, m) := by
        rw [splitRecurrents, hs]
        split
        · rename_i h1
          cases h1
          exact hsr.elim
        · rename_i h1
          cases h1
          rfl
      rw [heq] at h
      obtain ⟨i1, i2, i3, i4, i5, i6, i7⟩ :=
        splitRecurrents_spec o cs _ g m hk' hg others' g' m' h
      refine ⟨fun e => ?_, fun e l => ?_, i3, i4, fun l => by rw [i5, hl], by rw [i6, hl],
        fun hn => ?_⟩
      · rw [i1]; simp [onlyRec, List.filter_cons, hnr]
      · rw [i2, slopeSum, slope_recFree e l c hp.2]; omega
      · have hsc := hsc (fun a ha => hn a (by simp [ha]))
        subst hsc
        obtain ⟨j1, j2⟩ := i7 (fun a ha => hn a (by simp [ha]))
        refine ⟨fun e => ?_, fun d hd => ?_⟩
        · rw [j1, evalSum_addChild]
          simp [nonRec, List.filter_cons, hnr, evalSum]; omega
        · rcases j2 d hd with h1 | h1
          · rcases (mem_addChild o _ _ _).1 h1 with rfl | h2
            · exact .inr hp
            · exact .inl h2
          · exact .inr h1
    · have heq : splitRecurrents o (.recur l off coef :: cs) (others, g, m) =
          splitRecurrents o cs (others, (addRecurrent o l (off, coef, false) g).1,
            m || (addRecurrent o l (off, coef, false) g).2) := by
        rw [splitRecurrents]; rfl
      rw [heq] at h
      obtain ⟨a1, a2, a3, a4, a5, a6⟩ := addRecurrent_spec o l off coef hpo hpc g hg
      obtain ⟨i1, i2, i3, i4, i5, i6, i7⟩ :=
        splitRecurrents_spec o cs _ _ _ hk' a3 others' g' m' h
      have hl : recLoops (.recur l off coef :: cs) = l :: recLoops cs := by
        simp [recLoops, List.filterMap_cons, loop?]
      refine ⟨fun e => ?_, fun e l' => ?_, i3, fun hd => i4 (a5 hd), fun l' => ?_, ?_, fun hn => ?_⟩
      · rw [i1, a1]; simp [onlyRec, List.filter_cons, Node.isRecur, evalSum]; omega
      · rw [i2, a2, slopeSum]; omega
      · rw [i5, a4, hl]; simp only [List.mem_cons]; grind
      · rw [i6, hl]
        simp only [Bool.or_eq_false_iff, List.nodup_cons, List.mem_cons, a4, ← Bool.not_eq_true, a6]
        grind
      · obtain ⟨j1, j2⟩ := i7 (fun a ha => hn a (by simp [ha]))
        refine ⟨fun e => ?_, j2⟩
        rw [j1]
        simp [nonRec, List.filter_cons, Node.isRecur]

theorem sumRecurrents_spec (o : Order) : ∀ (rs : List (Node × Node × Bool))
    (coefs offs coefs' offs' : List Node),
    (∀ r ∈ rs, Plain r.1 ∧ Plain r.2.1 ∧ r.2.2 = false) →
    sumRecurrents o rs (coefs, offs) = .ok (coefs', offs') →
    (∀ e, evalSum e coefs' = evalSum e coefs + groupSlope e rs) ∧
    (∀ e l, evalSum e offs' + groupSlope e rs * e.iteration l =
      evalSum e offs + groupEval e l rs) ∧
    ((∀ c ∈ coefs, Plain c) → ∀ c ∈ coefs', Plain c) ∧
    ((∀ c ∈ offs, Plain c) → ∀ c ∈ offs', Plain c)
  | [], coefs, offs, coefs', offs', _, h => by
    cases ok_ok h
    simp [groupSlope, groupEval]
  | (off, coef, neg) :: rs, coefs, offs, coefs', offs', hr, h => by
    obtain ⟨h1, h2, h3⟩ := hr (off, coef, neg) (by simp)
    simp only at h1 h2 h3
    subst h3
    rw [sumRecurrents] at h
    simp only [Bool.not_false, if_true] at h
    obtain ⟨i1, i2, i3, i4⟩ := sumRecurrents_spec o rs _ _ coefs' offs'
      (fun r hm => hr r (by simp [hm])) h
    refine ⟨fun e => ?_, fun e l => ?_, fun hc => i3 ?_, fun hc => i4 ?_⟩
    · rw [i1, evalSum_addChild, groupSlope]; omega
    · have := i2 e l
      rw [evalSum_addChild] at this
      simp only [groupSlope, groupEval, Int.add_mul]
      omega
    · intro c hm
      rcases (mem_addChild o _ _ _).1 hm with rfl | hm
      · exact h2
      · exact hc c hm
    · intro c hm
      rcases (mem_addChild o _ _ _).1 hm with rfl | hm
      · exact h1
      · exact hc c hm

theorem foldGroups_spec (o : Order) {simp : Node → Except Err Node} (hs : GoodSimp simp) :
    ∀ (g : Groups) (others : List Node) (r : Except Node (List Node)),
    GoodGroups g → (∀ p ∈ g, ∃ e, groupSlope e p.2 ≠ 0) →
    foldGroups o simp g others = .ok r →
    ∃ cs, r = .ok cs ∧ (∀ e, evalSum e cs = evalSum e others + groupsEval e g) ∧
      (∀ e, evalSum e (nonRec cs) = evalSum e (nonRec others)) ∧
      ((recLoops cs).Perm (g.map (·.1) ++ recLoops others)) ∧
      (∀ c ∈ cs, c ∈ others ∨ ∃ l off coef, c = .recur l off coef ∧ Plain off ∧ Plain coef ∧
        coef ≠ .const 0)
  | [], others, r, _, _, h => by
    cases ok_ok h
    exact ⟨others, rfl, by simp [groupsEval], by simp, by simp, fun c hc => .inl hc⟩
  | (l, rs) :: g, others, r, hg, hsl, h => by
    rw [foldGroups] at h
    obtain ⟨⟨coefs, offs⟩, hsum, h⟩ := bind_ok h
    obtain ⟨coef, hcoef, h⟩ := bind_ok h
    obtain ⟨off, hoff, h⟩ := bind_ok h
    obtain ⟨i1, i2, i3, i4⟩ := sumRecurrents_spec o rs [] [] coefs offs (hg (l, rs) (by simp)).2 hsum
    obtain ⟨c1, c2⟩ := hs _ _ (plain_add (i3 (by simp))) hcoef
    obtain ⟨o1, o2⟩ := hs _ _ (plain_add (i4 (by simp))) hoff
    split at h
    · rename_i hz
      exfalso
      obtain ⟨e, he⟩ := hsl (l, rs) (by simp)
      apply he
      have := c1 e
      rw [hz, eval, eval, i1] at this
      simp [evalSum] at this
      simpa using this.symm
    · rename_i hz
      obtain ⟨cs, rfl, j1, j2, j3, j4⟩ := foldGroups_spec o hs g _ r
        (fun p hp => hg p (by simp [hp])) (fun p hp => hsl p (by simp [hp])) h
      refine ⟨cs, rfl, fun e => ?_, fun e => ?_, ?_, fun c hc => ?_⟩
      · rw [j1, evalSum_addChild, groupsEval]
        have := i2 e l
        simp only [evalSum] at this
        simp only [eval, c1, o1, i1, evalSum, Int.zero_add]
        omega
      · rw [j2, evalSum_nonRec_addChild]; simp [Node.isRecur]
      · refine j3.trans ?_
        refine ((recLoops_addChild o _ others).append_left _).trans ?_
        refine (List.perm_append_comm_assoc _ _ _).trans ?_
        simp [loop?]
      · rcases j4 c hc with h1 | h1
        · rcases (mem_addChild o _ _ _).1 h1 with rfl | h2
          · exact .inr ⟨l, off, coef, rfl, o2, c2, hz⟩
          · exact .inl h2
        · exact .inr h1

/-! ## The end -/

/-- What follows the folding of recurrent expressions. -/
def finishTail (o : Order) (simp : Node → Except Err Node) (poly folded : Node) :
    Except Err Node :=
  let s := eliminateZero o folded
  match lastRecurrent (s.children o) with
  | none => .ok s
  | some r =>
    if s.recurrents.any (fun r' => r' ≠ r) then .ok s
    else match r with
      | .recur l off coef => simplifyRecurrent o simp poly l off coef
      | _ => .ok s

theorem finish_eq (o : Order) (simp : Node → Except Err Node) (poly : Node) :
    finish o simp poly = (foldRecurrents o simp poly >>= finishTail o simp poly) := rfl

theorem lastRecurrent_some : ∀ {cs : List Node} {r : Node}, lastRecurrent cs = some r →
    r ∈ cs ∧ r.isRecur = true
  | c :: cs, r, h => by
    unfold lastRecurrent at h
    split at h
    · rename_i heq
      cases h
      obtain ⟨h1, h2⟩ := lastRecurrent_some heq
      exact ⟨by simp [h1], h2⟩
    · split at h
      · cases h
        exact ⟨by simp, by assumption⟩
      · cases h

theorem mem_recurrents {r : Node} (hr : r.isRecur = true) : r ∈ r.recurrents := by
  cases r <;> simp [Node.isRecur] at hr
  simp [Node.recurrents]

theorem mem_recurrentsList {r : Node} (hr : r.isRecur = true) :
    ∀ {cs : List Node}, r ∈ cs → r ∈ Node.recurrentsList cs
  | c :: cs, h => by
    rcases List.mem_cons.1 h with rfl | h
    · simp [Node.recurrentsList, mem_recurrents hr]
    · simp [Node.recurrentsList, mem_recurrentsList hr h]

/-- With one recurrent expression for each loop, all being the same, there is only one. -/
theorem onlyRec_single {l : Nat} {off coef : Node} : ∀ {cs : List Node},
    (recLoops cs).Nodup → .recur l off coef ∈ cs →
    (∀ c ∈ cs, c.isRecur = true → c = .recur l off coef) → onlyRec cs = [.recur l off coef]
  | c :: cs, hd, hm, hall => by
    cases hc : c.isRecur
    · have hl : recLoops (c :: cs) = recLoops cs := by
        cases c <;> simp [Node.isRecur] at hc <;> simp [recLoops, List.filterMap_cons, loop?]
      rw [hl] at hd
      have hm' : .recur l off coef ∈ cs := by
        rcases List.mem_cons.1 hm with h | h
        · rw [← h] at hc; cases hc
        · exact h
      have := onlyRec_single hd hm' (fun d hd' => hall d (by simp [hd']))
      simpa [onlyRec, List.filter_cons, hc] using this
    · have hce := hall c (by simp) hc
      subst hce
      have hl : recLoops (.recur l off coef :: cs) = l :: recLoops cs := by
        simp [recLoops, List.filterMap_cons, loop?]
      rw [hl, List.nodup_cons] at hd
      have hnone : onlyRec cs = [] := by
        rw [List.eq_nil_iff_forall_not_mem]
        intro d hd'
        obtain ⟨h1, h2⟩ := List.mem_filter.1 hd'
        have := hall d (by simp [h1]) h2
        subst this
        exact hd.1 (mem_recLoops.2 ⟨_, _, h1⟩)
      simp only [onlyRec] at hnone ⊢
      rw [List.filter_cons_of_pos hc, hnone]

theorem recurrents_of_any {s r : Node} (h : ¬ (s.recurrents.any fun r' => r' ≠ r) = true) :
    ∀ r' ∈ s.recurrents, r' = r := by
  intro r' hr'
  rw [Bool.not_eq_true, List.any_eq_false] at h
  have := h r' hr'
  simpa using this

theorem wrap_shape (o : Order) {cs : List Node} (hk : ∀ c ∈ cs, Kid c) :
    (∀ c ∈ (wrap cs).children o, RecFree c) ∨ (wrap cs = .add cs ∧ 2 ≤ cs.length) := by
  match cs, hk with
  | [], _ => left; simp [wrap, Node.children]
  | [c], hk =>
    left
    rcases hk c (by simp) with hp | ⟨l, off, coef, rfl, hpo, hpc⟩
    · exact fun d hd' => recFree_children hp.2 hd'
    · intro d hd'
      simp only [wrap, Node.children, mem_addChild, List.mem_singleton] at hd'
      rcases hd' with rfl | rfl
      · exact hpc.2
      · exact hpo.2
  | _ :: _ :: _, _ => right; exact ⟨rfl, by simp⟩

theorem eliminateZero_id (o : Order) {cs2 : List Node} (hkids : ∀ c ∈ cs2, Kid c)
    (hnz : ∀ l off coef, .recur l off coef ∈ cs2 → coef ≠ .const 0) :
    eliminateZero o (wrap cs2) = wrap cs2 := by
  have hchildren := wrap_shape o hkids
  cases hw : wrap cs2 with
  | add ds =>
    have hany : ds.any isZeroRecurrent = false := by
      rw [List.any_eq_false]
      intro c hc
      rcases hchildren with h1 | ⟨h1, _⟩
      · rw [hw] at h1
        have := h1 c hc
        cases c with
        | recur => exact this.elim
        | _ => simp [isZeroRecurrent]
      · rw [hw] at h1
        cases h1
        cases c with
        | recur l off coef =>
          have := hnz l off coef hc
          cases coef with
          | const v =>
            simp only [ne_eq, Node.const.injEq] at this
            unfold isZeroRecurrent
            split
            · rename_i h1; cases h1; exact (this rfl).elim
            · simp
          | _ => simp [isZeroRecurrent]
        | _ => simp [isZeroRecurrent]
    simp [eliminateZero, hany]
  | _ => rfl

theorem finishTail_spec (o : Order) {simp : Node → Except Err Node} (hs : GoodSimp simp)
    {cs2 : List Node} {poly m : Node} (hkids : ∀ c ∈ cs2, Kid c)
    (hnz : ∀ l off coef, .recur l off coef ∈ cs2 → coef ≠ .const 0)
    (hd : (recLoops cs2).Nodup)
    (hpoly : ∀ c ∈ nonRec (poly.children o), Plain c)
    (hsum : 2 ≤ cs2.length →
      ∀ e, evalSum e (nonRec (poly.children o)) = evalSum e (nonRec cs2))
    (h : finishTail o simp poly (wrap cs2) = .ok m) : ∀ e, eval e m = evalSum e cs2 := by
  have hchildren := wrap_shape o hkids
  have hel := eliminateZero_id o hkids hnz
  unfold finishTail at h
  simp only [hel] at h
  split at h
  · cases ok_ok h
    exact fun e => eval_wrap e cs2
  · rename_i r hr
    split at h
    · cases ok_ok h
      exact fun e => eval_wrap e cs2
    · rename_i hany
      obtain ⟨hrm, hrr⟩ := lastRecurrent_some hr
      rcases hchildren with h1 | ⟨h1, hlen⟩
      · have := recFree_not_recur (h1 r hrm)
        rw [hrr] at this; cases this
      · rw [h1] at hrm hany
        simp only [Node.children] at hrm
        have hall := recurrents_of_any hany
        cases r <;> simp [Node.isRecur] at hrr
        rename_i l off coef
        simp only at h
        have hone := onlyRec_single hd hrm (fun c hc hcr =>
          hall c (by simpa [Node.recurrents] using mem_recurrentsList hcr hc))
        unfold simplifyRecurrent at h
        obtain ⟨x, hx, h⟩ := bind_ok h
        have hp : Plain off ∧ Plain coef := by
          rcases hkids _ hrm with hp | ⟨l', off', coef', heq, hpo, hpc⟩
          · exact hp.2.elim
          · cases heq; exact ⟨hpo, hpc⟩
        obtain ⟨x1, x2⟩ := hs _ _ (plain_add fun c hc => by
          simp only [offsetChildren, mem_addAll, List.mem_singleton] at hc
          rcases hc with hc | rfl
          · exact hpoly c hc
          · exact hp.1) hx
        split at h
        · cases h
        · cases pure_ok h
          intro e
          rw [eval, x1, eval]
          simp only [offsetChildren, evalSum_addAll, evalSum]
          have h2 := hsum hlen e
          simp only [nonRec] at h2
          rw [h2, evalSum_parts e cs2, hone]
          simp only [nonRec, evalSum, eval]
          omega

/-- What folding recurrent expressions leaves of the children of an addition. -/
theorem fold_shape (o : Order) {simp : Node → Except Err Node} (hs : GoodSimp simp)
    {n folded : Node} {cs : List Node} (h1 : Stage1 n cs) (hneg : NoLostNegation n)
    (hloop : NoLostLoop n) (hf : foldRecurrents o simp (.add cs) = .ok folded) :
    ∃ cs2, (folded = wrap cs2 ∨ (folded = .add cs ∧ cs2 = cs)) ∧ (∀ c ∈ cs2, Kid c) ∧
      (∀ l off coef, .recur l off coef ∈ cs2 → coef ≠ .const 0) ∧ (recLoops cs2).Nodup ∧
      (∀ e, evalSum e (nonRec cs) = evalSum e (nonRec cs2)) ∧
      (∀ e, evalSum e cs2 = evalSum e cs) := by
  have hslope : ∀ l ∈ recLoops cs, ∃ e, slopeSum e l cs ≠ 0 := by
    intro l hl
    obtain ⟨off, coef, hlive⟩ := h1.live l hl
    obtain ⟨e, he⟩ := hloop l off coef hlive
    exact ⟨e, by rw [h1.slope]; exact he⟩
  rcases hsp : splitRecurrents o cs ([], [], false) with ⟨others, groups, multiple⟩
  unfold foldRecurrents at hf
  rw [show Node.children o (.add cs) = cs from rfl, hsp] at hf
  simp only at hf
  obtain ⟨s1, s2, s3, s4, s5, s6, s7⟩ := splitRecurrents_spec o cs [] [] false h1.kids
    (by intro p hp; simp at hp) _ _ _ hsp
  have hsl0 : ∀ l off coef, (recLoops cs).Nodup → .recur l off coef ∈ cs → coef ≠ .const 0 := by
    rintro l off coef hd hmem rfl
    obtain ⟨e', he'⟩ := hslope l (mem_recLoops.2 ⟨_, _, hmem⟩)
    apply he'
    clear hf hsp s1 s2 s3 s4 s5 s6 s7 he' hslope
    have hk := h1.kids
    clear h1
    induction cs with
    | nil => rfl
    | cons c cs ih =>
      have hk' := fun d hd => hk d (List.mem_cons_of_mem c hd)
      rcases hk c (by simp) with hp | ⟨l', off', coef', rfl, hpo, hpc⟩
      · have hl : recLoops (c :: cs) = recLoops cs := by
          cases c with
          | recur => exact hp.2.elim
          | _ => simp [recLoops, List.filterMap_cons, loop?]
        rw [hl] at hd
        rw [slopeSum, slope_recFree _ _ c hp.2]
        rcases List.mem_cons.1 hmem with rfl | hmem
        · exact hp.2.elim
        · rw [ih hd hmem hk']; rfl
      · have hl : recLoops (.recur l' off' coef' :: cs) = l' :: recLoops cs := by
          simp [recLoops, List.filterMap_cons, loop?]
        rw [hl, List.nodup_cons] at hd
        rw [slopeSum]
        rcases List.mem_cons.1 hmem with heq | hmem
        · cases heq
          have hrest : ∀ ds : List Node, (∀ d ∈ ds, Kid d) → l ∉ recLoops ds →
              slopeSum e' l ds = 0 := by
            intro ds
            induction ds with
            | nil => intros; rfl
            | cons d ds ihd =>
              intro hkd hnl
              have hn2 : l ∉ recLoops ds := fun hm => hnl (by
                obtain ⟨o2, c2, hm2⟩ := mem_recLoops.1 hm
                exact mem_recLoops.2 ⟨o2, c2, by simp [hm2]⟩)
              rw [slopeSum, ihd (fun x hx => hkd x (by simp [hx])) hn2]
              rcases hkd d (by simp) with hp | ⟨l2, off2, coef2, rfl, _⟩
              · simp [slope_recFree _ _ d hp.2]
              · have : l2 ≠ l := fun hc => hnl (mem_recLoops.2 ⟨off2, coef2, by simp [hc]⟩)
                simp [slope, this]
          rw [hrest cs hk' hd.1]
          simp [slope, eval]
        · rw [ih hd.2 hmem hk']
          have : l' ≠ l := fun hc => hd.1 (hc ▸ mem_recLoops.2 ⟨_, _, hmem⟩)
          simp [slope, this]
  cases multiple with
  | false =>
    simp only [Bool.not_false, if_true] at hf
    cases pure_ok hf
    have hd := (s6.1 rfl).2.1
    exact ⟨cs, .inr ⟨rfl, rfl⟩, h1.kids, fun l off coef hm => hsl0 l off coef hd hm, hd,
      fun _ => rfl, fun _ => rfl⟩
  | true =>
    simp only [Bool.not_true, Bool.false_eq_true, if_false] at hf
    obtain ⟨r, hr, hf⟩ := bind_ok hf
    have hnoneg : ∀ a, .neg a ∉ cs := by
      intro a ha
      rcases hneg with hn | hn
      · obtain ⟨i, hi⟩ := h1.neg ⟨a, ha⟩
        exact hn i hi
      · have := s6.2 ⟨rfl, h1.single hn, by simp⟩
        cases this
    obtain ⟨t1, t2⟩ := s7 hnoneg
    have hgd := s4 (by simp)
    have hgs : ∀ p ∈ groups, ∃ e, groupSlope e p.2 ≠ 0 := by
      rintro ⟨l, rs⟩ hp
      have hl : l ∈ recLoops cs := by
        have := (s5 l).1 (List.mem_map.2 ⟨_, hp, rfl⟩)
        simpa using this
      obtain ⟨e', he'⟩ := hslope l hl
      refine ⟨e', fun hz => he' ?_⟩
      have h2 := s2 e' l
      rw [show groupsSlope e' l [] = 0 from rfl] at h2
      have h3 : ∀ g : Groups, (g.map (·.1)).Nodup → (l, rs) ∈ g →
          groupsSlope e' l g = groupSlope e' rs := by
        intro g
        induction g with
        | nil => intro _ hm; simp at hm
        | cons q g ihg =>
          obtain ⟨l2, rs2⟩ := q
          intro hnd hm
          simp only [List.map_cons, List.nodup_cons] at hnd
          have hzero : ∀ g : Groups, l ∉ g.map (·.1) → groupsSlope e' l g = 0 := by
            intro g
            induction g with
            | nil => intro _; rfl
            | cons q g ihg2 =>
              obtain ⟨l3, rs3⟩ := q
              intro hnm
              simp only [List.map_cons, List.mem_cons, not_or] at hnm
              rw [groupsSlope, ihg2 hnm.2, if_neg (fun hc => hnm.1 hc.symm)]
              rfl
          rcases List.mem_cons.1 hm with heq | hm
          · cases heq
            rw [groupsSlope, if_pos rfl, hzero g hnd.1]; omega
          · have hne : l2 ≠ l := fun hc => hnd.1 (List.mem_map.2 ⟨_, hm, hc.symm⟩)
            rw [groupsSlope, if_neg hne, ihg hnd.2 hm]; omega
      rw [h3 groups hgd hp] at h2
      simp only at hz
      omega
    obtain ⟨cs2, rfl, f1, f2, f3, f4⟩ := foldGroups_spec o hs groups others r s3 hgs hr
    simp only at hf
    cases pure_ok hf
    have hoth : ∀ c ∈ others, Plain c := fun c hc => by
      rcases t2 c hc with h2 | h2
      · simp at h2
      · exact h2
    have hothl : recLoops others = [] := by
      rw [List.eq_nil_iff_forall_not_mem]
      intro l hl
      obtain ⟨off, coef, hm⟩ := mem_recLoops.1 hl
      exact (hoth _ hm).2.elim
    have hothn : nonRec others = others := by
      unfold nonRec
      rw [List.filter_eq_self]
      intro c hc
      simp [plain_not_recur (hoth c hc)]
    refine ⟨cs2, .inl rfl, fun c hc => ?_, fun l off coef hm => ?_, ?_, fun e => ?_, fun e => ?_⟩
    · rcases f4 c hc with h2 | ⟨l, off, coef, rfl, h3, h4, _⟩
      · exact .inl (hoth c h2)
      · exact .inr ⟨l, off, coef, rfl, h3, h4⟩
    · rcases f4 _ hm with h2 | ⟨l', off', coef', heq, h3, h4, h5⟩
      · exact (hoth _ h2).2.elim
      · cases heq; exact h5
    · rw [f3.nodup_iff, hothl, List.append_nil]; exact hgd
    · rw [f2, hothn, t1]; simp [evalSum]
    · rw [f1, t1, s1, evalSum_parts e cs]; simp [evalSum, groupsEval]

/-- The second half preserves the value. -/
theorem finish_spec (o : Order) {simp : Node → Except Err Node} (hs : GoodSimp simp)
    {n m : Node} {cs : List Node} (h1 : Stage1 n cs) (hneg : NoLostNegation n)
    (hloop : NoLostLoop n) (h : finish o simp (wrap cs) = .ok m) : ∀ e, eval e m = eval e n := by
  intro e
  rw [← h1.val]
  rcases wrap_shape o h1.kids with hnr | ⟨hadd, hlen⟩
  · rw [finish_noRec o simp (wrap cs) hnr] at h
    cases ok_ok h
    exact eval_wrap e cs
  · rw [finish_eq] at h
    obtain ⟨folded, hf, h2⟩ := bind_ok h
    rw [hadd] at hf h2
    obtain ⟨cs2, hw, k1, k2, k3, k4, k5⟩ := fold_shape o hs h1 hneg hloop hf
    have hw' : folded = wrap cs2 := by
      rcases hw with hw | ⟨hw, rfl⟩
      · exact hw
      · rw [hw, hadd]
    subst hw'
    have := finishTail_spec o hs (cs2 := cs2) (poly := .add cs) (m := m) k1 k2 k3
      (kid_nonRec h1.kids) (fun _ => k4) h2
    rw [this e, k5]

end Verif.ScalarEvo
