import Verif.ScalarEvo.Lemmas

set_option linter.unusedSimpArgs false
set_option linter.unusedVariables false

namespace Verif.ScalarEvo

open Spec

/-- No recurrent expression, and products other than constant times unknown only where they are
not negated. -/
def Plain (n : Node) : Prop := Supported false n ∧ RecFree n

/-- The children met while simplifying a supported expression. -/
def Kid (n : Node) : Prop :=
  Plain n ∨ ∃ l off coef, n = .recur l off coef ∧ Plain off ∧ Plain coef

theorem plain_add {cs : List Node} (h : ∀ c ∈ cs, Plain c) : Plain (.add cs) :=
  ⟨(supportedList_iff _ _).2 fun c hc => (h c hc).1, (recFreeList_iff _).2 fun c hc => (h c hc).2⟩

theorem affine_plain {n : Node} (h : Affine n) : Plain n :=
  ⟨affine_supported n _ h, affine_recFree n h⟩

theorem plain_ne_cant {n : Node} (h : Plain n) : n ≠ .cant := by
  rintro rfl; exact h.2.elim

theorem plain_not_recur {n : Node} (h : Plain n) : n.isRecur = false := by
  cases n with
  | recur => exact h.2.elim
  | _ => rfl

theorem affine_createNegation {n m : Node} (hn : Affine n) (h : createNegation n = .ok m) :
    Affine m := by
  unfold createNegation at h
  split at h
  · exact hn.elim
  · obtain ⟨v, hv, h⟩ := bind_ok h
    cases pure_ok h; trivial
  · cases ok_ok h; exact hn

/-- What is known of the recursive calls. -/
def GoodSimp (simp : Node → Except Err Node) : Prop :=
  ∀ n m, Plain n → simp n = .ok m → (∀ e, eval e m = eval e n) ∧ Plain m

theorem recFree_children {o : Order} {n c : Node} (h : RecFree n) (hc : c ∈ n.children o) :
    RecFree c := by
  cases n with
  | const v => simp [Node.children] at hc
  | unknown i => simp [Node.children] at hc
  | recur => exact h.elim
  | add cs => exact (recFreeList_iff _).1 h c hc
  | mul a b =>
    simp only [Node.children, mem_addChild, List.mem_singleton] at hc
    rcases hc with rfl | rfl
    · exact h.2
    · exact h.1
  | neg a =>
    simp only [Node.children, List.mem_singleton] at hc
    exact hc ▸ h
  | cant => exact h.elim

mutual
theorem recFree_recurrents : ∀ n : Node, RecFree n → n.recurrents = []
  | .const _, _ => rfl
  | .unknown _, _ => rfl
  | .recur .., h => h.elim
  | .add cs, h => by simp [Node.recurrents, recFreeList_recurrents cs h]
  | .mul a b, h => by
      simp [Node.recurrents, recFree_recurrents a h.1, recFree_recurrents b h.2]
  | .neg a, h => by simp [Node.recurrents, recFree_recurrents a h]
  | .cant, h => h.elim
theorem recFreeList_recurrents : ∀ cs : List Node, RecFreeList cs →
    Node.recurrentsList cs = []
  | [], _ => rfl
  | c :: cs, h => by
      simp [Node.recurrentsList, recFree_recurrents c h.1, recFreeList_recurrents cs h.2]
end

theorem stripNegation_recFree {c : Node} (h : RecFree c) : RecFree (stripNegation c).1 := by
  cases c <;> first | exact h | exact h.elim

theorem splitRecurrents_recFree (o : Order) :
    ∀ (cs : List Node) (others : List Node) (g : Groups) (m : Bool), (∀ c ∈ cs, RecFree c) →
      ∃ others', splitRecurrents o cs (others, g, m) = (others', g, m)
  | [], others, g, m, _ => ⟨others, rfl⟩
  | c :: cs, others, g, m, h => by
    have hc := stripNegation_recFree (h c (by simp))
    unfold splitRecurrents
    split
    · rename_i heq
      rw [heq] at hc
      exact hc.elim
    · exact splitRecurrents_recFree o cs _ g m (fun d hd => h d (by simp [hd]))

theorem lastRecurrent_none : ∀ cs : List Node, (∀ c ∈ cs, c.isRecur = false) →
    lastRecurrent cs = none
  | [], _ => rfl
  | c :: cs, h => by
    simp [lastRecurrent, lastRecurrent_none cs (fun d hd => h d (by simp [hd])), h c (by simp)]

theorem recFree_not_recur {n : Node} (h : RecFree n) : n.isRecur = false := by
  cases n with
  | recur => exact h.elim
  | _ => rfl

/-- Nothing happens after the first stage where the children have no recurrent expressions. -/
theorem finish_noRec (o : Order) (simp : Node → Except Err Node) (n : Node)
    (h : ∀ c ∈ n.children o, RecFree c) : finish o simp n = .ok n := by
  have hf : foldRecurrents o simp n = .ok n := by
    unfold foldRecurrents
    obtain ⟨others, heq⟩ := splitRecurrents_recFree o _ [] [] false h
    rw [heq]
    rfl
  unfold finish
  rw [hf]
  have he : eliminateZero o n = n := by
    cases n with
    | add cs =>
      have hany : cs.any isZeroRecurrent = false := by
        rw [List.any_eq_false]
        intro c hc
        have := h c hc
        cases c with
        | recur => exact this.elim
        | _ => simp [isZeroRecurrent]
      simp [eliminateZero, hany]
    | _ => rfl
  simp only [bind, Except.bind, he]
  rw [lastRecurrent_none _ (fun c hc => recFree_not_recur (h c hc))]
  rfl

/-! ## The first stage -/

theorem natAbs_le_one {v : Int} (h : v.natAbs ≤ 1) (h0 : v ≠ 0) (h1 : v ≠ 1) : v = -1 := by
  omega

theorem termChild_none {simp : Node → Except Err Node} {t : Node} {v : Int}
    (h : termChild simp t v = .ok none) : v = 0 := by
  unfold termChild at h
  split at h
  · assumption
  · split at h
    · cases ok_ok h
    · split at h
      · obtain ⟨x, hx, h⟩ := bind_ok h
        cases pure_ok h
      · split at h
        · obtain ⟨x, hx, h⟩ := bind_ok h
          cases pure_ok h
        · obtain ⟨x, hx, h⟩ := bind_ok h
          cases pure_ok h

theorem createMultiply_const {v : Int} {b m : Node} (h : createMultiply b (.const v) = .ok m)
    (hb : Plain b) : Plain m := by
  unfold createMultiply at h
  split at h
  · rename_i hc
    cases b with
    | cant => exact hb.2.elim
    | _ => simp [Node.isCant] at hc
  · split at h
    · obtain ⟨x, hx, h⟩ := bind_ok h
      cases pure_ok h
      exact ⟨trivial, trivial⟩
    · cases ok_ok h
      exact ⟨.inr (.inr ⟨rfl, hb.2, trivial⟩), ⟨hb.2, trivial⟩⟩

theorem updateCoefficient_spec {simp : Node → Except Err Node} (hs : GoodSimp simp) {l : Nat}
    {off coef c : Node} {v : Int} (hoff : Affine off) (hcoef : Affine coef)
    (hv0 : v ≠ 0) (hv1 : v ≠ 1) (hv : v.natAbs ≤ 1 ∨ off = .const 0)
    (h : updateCoefficient simp l off coef v = .ok c) :
    ∃ off' coef', c = .recur l off' coef' ∧ Plain off' ∧ Plain coef' ∧
      (∀ e, eval e coef' = v * eval e coef) ∧ (∀ e, eval e off' = v * eval e off) := by
  unfold updateCoefficient at h
  obtain ⟨c1, hc1, h⟩ := bind_ok h
  obtain ⟨c2, hc2, h⟩ := bind_ok h
  obtain ⟨o1, ho1, h⟩ := bind_ok h
  cases pure_ok h
  have hp1 := createMultiply_const hc1 (affine_plain hcoef)
  obtain ⟨hv2, hp2⟩ := hs _ _ hp1 hc2
  have hnc : c2.isCant = false := by
    cases c2 with
    | cant => exact hp2.2.elim
    | _ => rfl
  have he1 := fun e => eval_createMultiply e (plain_ne_cant (affine_plain hcoef)) (by simp) hc1
  refine ⟨o1, c2, by simp [hnc], ?_, hp2, fun e => ?_, fun e => ?_⟩
  · split at ho1
    · exact affine_plain (affine_createNegation hoff ho1)
    · cases ok_ok ho1; exact affine_plain hoff
  · rw [hv2, he1]; simp [eval, Int.mul_comm]
  · split at ho1
    · rename_i hneg
      rw [eval_createNegation e (plain_ne_cant (affine_plain hoff)) ho1]
      rcases hv with hv | rfl
      · rw [natAbs_le_one hv hv0 hv1]; omega
      · simp [eval]
    · rename_i hneg
      cases ok_ok ho1
      rcases hv with hv | rfl
      · omega
      · simp [eval]

theorem termChild_spec {simp : Node → Except Err Node} (hs : GoodSimp simp) {t c : Node} {v : Int}
    (ht : Term t)
    (hv : ∀ l off coef, t = .recur l off coef → v.natAbs ≤ 1 ∨ off = .const 0)
    (h : termChild simp t v = .ok (some c)) :
    v ≠ 0 ∧ (∀ e, eval e c = v * eval e t) ∧ (∀ e l, slope e l c = v * slope e l t) ∧ Kid c ∧
    ((∃ a, c = .neg a) → v = -1 ∧ ∃ i, t = .unknown i) ∧
    (∀ l off coef, c = .recur l off coef → ∃ off' coef', t = .recur l off' coef') ∧
    (RecFree t → Plain c) := by
  unfold termChild at h
  split at h
  · cases ok_ok h
  rename_i h0
  split at h
  · rename_i h1
    cases ok_ok h
    subst h1
    refine ⟨h0, fun e => by simp, fun e l => by simp, ?_, ?_, ?_, ?_⟩
    · cases t with
      | unknown i => exact .inl ⟨trivial, trivial⟩
      | recur l off coef => exact .inr ⟨l, off, coef, rfl, affine_plain ht.1, affine_plain ht.2⟩
      | _ => exact ht.elim
    · rintro ⟨a, rfl⟩; exact ht.elim
    · intro l off coef heq; exact ⟨off, coef, heq⟩
    · intro hr
      cases t with
      | unknown i => exact ⟨trivial, trivial⟩
      | recur l off coef => exact hr.elim
      | _ => exact ht.elim
  rename_i h1
  split at h
  · rename_i hm
    obtain ⟨x, hx, h⟩ := bind_ok h
    cases pure_ok h
    cases t with
    | unknown i =>
      cases ok_ok hx
      simp only [Node.isRecur, Bool.not_false, Bool.and_true, decide_eq_true_eq] at hm
      subst hm
      refine ⟨h0, fun e => by simp [eval], fun e l => by simp [slope], .inl ⟨trivial, trivial⟩,
        fun _ => ⟨rfl, i, rfl⟩, (fun l off coef heq => by cases heq),
        fun _ => ⟨trivial, trivial⟩⟩
    | recur l off coef => simp [Node.isRecur] at hm
    | _ => exact ht.elim
  split at h
  · rename_i l off coef hm
    obtain ⟨x, hx, h⟩ := bind_ok h
    cases pure_ok h
    obtain ⟨off', coef', rfl, hpo, hpc, hec, heo⟩ :=
      updateCoefficient_spec hs ht.1 ht.2 h0 h1 (hv l off coef rfl) hx
    refine ⟨h0, fun e => ?_, fun e l' => ?_, .inr ⟨l, off', coef', rfl, hpo, hpc⟩,
      (fun ⟨a, ha⟩ => by cases ha), fun l2 o2 c2 heq => ?_, fun hr => hr.elim⟩
    · simp only [eval, hec, heo, Int.mul_add, Int.mul_assoc]
    · simp only [slope, hec]; split <;> simp
    · cases heq; exact ⟨off, coef, rfl⟩
  · rename_i hm
    obtain ⟨x, hx, h⟩ := bind_ok h
    cases pure_ok h
    cases t with
    | unknown i =>
      cases ok_ok hx
      refine ⟨h0, fun e => by simp [eval], fun e l => by simp [slope],
        .inl ⟨.inl ⟨v, rfl, trivial⟩, trivial, trivial⟩,
        (fun ⟨a, ha⟩ => by cases ha), (fun l off coef heq => by cases heq),
        fun _ => ⟨.inl ⟨v, rfl, trivial⟩, trivial, trivial⟩⟩
    | recur l off coef => exact (hm _ _ _ rfl).elim
    | _ => exact ht.elim

theorem slopeSum_addChild (o : Order) (e : Env) (l : Nat) (c : Node) (cs : List Node) :
    slopeSum e l (addChild o c cs) = slope e l c + slopeSum e l cs := by
  induction cs with
  | nil => simp [addChild, slopeSum]
  | cons d ds ih =>
    unfold addChild
    split
    · simp [slopeSum, ih]; omega
    · simp [slopeSum]

/-- The loop of a recurrent expression. -/
def loop? : Node → Option Nat
  | .recur l _ _ => some l
  | _ => none

/-- The loops of the recurrent expressions in a list. -/
def recLoops (cs : List Node) : List Nat := cs.filterMap loop?

theorem addChild_perm (o : Order) (c : Node) (cs : List Node) :
    (addChild o c cs).Perm (c :: cs) := by
  induction cs with
  | nil => simp [addChild]
  | cons d ds ih =>
    unfold addChild
    split
    · exact (List.Perm.cons d ih).trans (List.Perm.swap c d ds)
    · exact List.Perm.refl _

theorem recLoops_addChild (o : Order) (c : Node) (cs : List Node) :
    (recLoops (addChild o c cs)).Perm ((loop? c).toList ++ recLoops cs) := by
  have := (addChild_perm o c cs).filterMap loop?
  unfold recLoops
  refine this.trans ?_
  cases h : loop? c <;> simp [List.filterMap_cons, h]

theorem mem_recLoops {l : Nat} {cs : List Node} :
    l ∈ recLoops cs ↔ ∃ off coef, Node.recur l off coef ∈ cs := by
  simp only [recLoops, List.mem_filterMap]
  constructor
  · rintro ⟨c, hc, hl⟩
    cases c <;> simp [loop?] at hl
    subst hl
    exact ⟨_, _, hc⟩
  · rintro ⟨off, coef, h⟩
    exact ⟨_, h, rfl⟩

/-- What the loop over the accumulators does. -/
theorem addTerms_spec (o : Order) {simp : Node → Except Err Node} (hs : GoodSimp simp) :
    ∀ (ts : List (Node × Int)) (cs cs' : List Node), addTerms o simp ts cs = .ok cs' →
      (∀ p ∈ ts, Term p.1 ∧
        ∀ l off coef, p.1 = .recur l off coef → p.2.natAbs ≤ 1 ∨ off = .const 0) →
      (∀ e, evalSum e cs' = evalSum e cs + termSum e ts) ∧
      (∀ e l, slopeSum e l cs' = slopeSum e l cs + termSlope e l ts) ∧
      (∀ c ∈ cs', c ∈ cs ∨ Kid c) ∧
      (∀ a, .neg a ∈ cs' → .neg a ∈ cs ∨ ∃ i, (Node.unknown i, -1) ∈ ts) ∧
      ((recLoops cs').Perm (recLoops (ts.filter (fun p => p.2 ≠ 0) |>.map (·.1)) ++ recLoops cs)) ∧
      ((∀ p ∈ ts, RecFree p.1) → ∀ c ∈ cs', c ∈ cs ∨ Plain c)
  | [], cs, cs', h, _ => by
    cases ok_ok h
    refine ⟨fun e => by simp [termSum], fun e l => by simp [termSlope], fun c hc => .inl hc,
      fun a ha => .inl ha, by simp [recLoops], fun _ c hc => .inl hc⟩
  | (t, v) :: ts, cs, cs', h, hts => by
    unfold addTerms at h
    obtain ⟨x, hx, h⟩ := bind_ok h
    have htv := hts (t, v) (by simp)
    have hts' := fun p hp => hts p (List.mem_cons_of_mem (t, v) hp)
    cases x with
    | none =>
      obtain ⟨i1, i2, i3, i4, i5, i6⟩ := addTerms_spec o hs ts cs cs' h hts'
      have := termChild_none hx
      subst this
      refine ⟨fun e => by simp [termSum, i1], fun e l => by simp [termSlope, i2], i3,
        fun a ha => ?_, by simpa using i5, fun hr => i6 fun p hp => hr p (by simp [hp])⟩
      rcases i4 a ha with h1 | ⟨i, hi⟩
      · exact .inl h1
      · exact .inr ⟨i, by simp [hi]⟩
    | some c =>
      obtain ⟨i1, i2, i3, i4, i5, i6⟩ := addTerms_spec o hs ts _ cs' h hts'
      obtain ⟨j0, j1, j2, j3, j4, j5, j6⟩ := termChild_spec hs htv.1 htv.2 hx
      refine ⟨fun e => ?_, fun e l => ?_, fun d hd => ?_, fun a ha => ?_, ?_, fun hr d hd => ?_⟩
      · rw [i1, evalSum_addChild, j1, termSum]; dsimp only; omega
      · rw [i2, slopeSum_addChild, j2, termSlope]; dsimp only; omega
      · rcases i3 d hd with h1 | h1
        · rcases (mem_addChild o _ _ _).1 h1 with rfl | h2
          · exact .inr j3
          · exact .inl h2
        · exact .inr h1
      · rcases i4 a ha with h1 | ⟨i, hi⟩
        · rcases (mem_addChild o _ _ _).1 h1 with rfl | h2
          · obtain ⟨rfl, i, rfl⟩ := j4 ⟨a, rfl⟩
            exact .inr ⟨i, by simp⟩
          · exact .inl h2
        · exact .inr ⟨i, by simp [hi]⟩
      · refine i5.trans ?_
        have hl : loop? c = loop? t := by
          cases hc : loop? c with
          | some l =>
            cases c <;> simp [loop?] at hc
            obtain ⟨o', c', rfl⟩ := j5 _ _ _ rfl
            simp [loop?, hc]
          | none =>
            cases t with
            | recur l off coef =>
              rcases j3 with hp | ⟨l', off', coef', rfl, _⟩
              · exfalso
                have := j2 ⟨fun _ => 0, fun _ => 0, 0⟩ l
                unfold termChild at hx
                simp only [j0, if_false, Node.isRecur, Bool.not_true, Bool.and_false] at hx
                split at hx
                · cases ok_ok hx; exact hp.2.elim
                · simp only [Bool.false_eq_true, if_false] at hx
                  obtain ⟨y, hy, hx⟩ := bind_ok hx
                  cases pure_ok hx
                  unfold updateCoefficient at hy
                  obtain ⟨_, _, hy⟩ := bind_ok hy
                  obtain ⟨_, _, hy⟩ := bind_ok hy
                  obtain ⟨_, _, hy⟩ := bind_ok hy
                  cases pure_ok hy
                  exact hp.2.elim
              · cases hc
            | _ => rfl
        have hf : recLoops ((((t, v) :: ts).filter (fun p => p.2 ≠ 0)).map (·.1)) =
            (loop? t).toList ++ recLoops ((ts.filter (fun p => p.2 ≠ 0)).map (·.1)) := by
          rw [List.filter_cons_of_pos (by simpa using j0)]
          cases h : loop? t <;> simp [recLoops, List.filterMap_cons, h]
        rw [hf]
        refine ((recLoops_addChild o c cs).append_left _).trans ?_
        rw [hl]
        refine (List.perm_append_comm_assoc _ _ _).trans ?_
        rw [List.append_assoc]
      · have hr' := hr (t, v) (by simp)
        rcases i6 (fun p hp => hr p (by simp [hp])) d hd with h1 | h1
        · rcases (mem_addChild o _ _ _).1 h1 with rfl | h2
          · exact .inr (j6 hr')
          · exact .inl h2
        · exact .inr h1

/-- The children left by the first stage. -/
structure Stage1 (n : Node) (cs : List Node) : Prop where
  val : ∀ e, evalSum e cs = eval e n
  slope : ∀ e l, slopeSum e l cs = slope e l n
  kids : ∀ c ∈ cs, Kid c
  neg : (∃ a, .neg a ∈ cs) → ∃ i, count (.unknown i) n = -1
  live : ∀ l ∈ recLoops cs, ∃ off coef, Live n l off coef
  single : (∀ l o c o' c', Live n l o c → Live n l o' c' → o = o' ∧ c = c') →
    (recLoops cs).Nodup
  plain : RecFree n → ∀ c ∈ cs, Plain c

theorem recLoops_nodup {ts : List Node} (hd : ts.Nodup)
    (h : ∀ l o c o' c', Node.recur l o c ∈ ts → Node.recur l o' c' ∈ ts → o = o' ∧ c = c') :
    (recLoops ts).Nodup := by
  induction ts with
  | nil => simp [recLoops]
  | cons t ts ih =>
    simp only [List.nodup_cons] at hd
    have ih := ih hd.2 (fun l o c o' c' h1 h2 => h l o c o' c' (by simp [h1]) (by simp [h2]))
    cases t with
    | recur l off coef =>
      have : recLoops (.recur l off coef :: ts) = l :: recLoops ts := by
        simp [recLoops, List.filterMap_cons, loop?]
      rw [this, List.nodup_cons]
      refine ⟨fun hm => ?_, ih⟩
      obtain ⟨o', c', hmem⟩ := mem_recLoops.1 hm
      obtain ⟨rfl, rfl⟩ := h l off coef o' c' (by simp) (by simp [hmem])
      exact hd.1 hmem
    | _ => simpa [recLoops, List.filterMap_cons, loop?] using ih

theorem stage1 (o : Order) {simp : Node → Except Err Node} (hs : GoodSimp simp) {n poly : Node}
    (hn : Supported false n) (hz : ScaledFromZero n)
    (h : simplifyPolynomial o simp n = .ok poly) : ∃ cs, poly = wrap cs ∧ Stage1 n cs := by
  unfold simplifyPolynomial at h
  obtain ⟨acc, hacc, h⟩ := bind_ok h
  obtain ⟨cs, hcs, h⟩ := bind_ok h
  cases pure_ok h
  have g := gather_spec o n {} acc false hacc hn (by simp)
  have hlook : ∀ t v, (t, v) ∈ acc.terms → v = count t n := by
    intro t v hm
    have h1 := look_mem g.nodup hm
    have ht : Term t := by
      rcases g.keys t (List.mem_map.2 ⟨_, hm, rfl⟩) with h2 | h2
      · simp at h2
      · exact h2.1
    rw [g.look t (term_isTerm ht)] at h1
    simpa [look, sgn] using h1.symm
  have hterms : ∀ p ∈ acc.terms, Term p.1 ∧
      ∀ l off coef, p.1 = .recur l off coef → p.2.natAbs ≤ 1 ∨ off = .const 0 := by
    intro p hp
    refine ⟨?_, fun l off coef heq => ?_⟩
    · rcases g.keys p.1 (List.mem_map.2 ⟨_, hp, rfl⟩) with h2 | h2
      · simp at h2
      · exact h2.1
    · rw [hlook p.1 p.2 hp, heq]
      exact hz l off coef
  obtain ⟨i1, i2, i3, i4, i5, i6⟩ := addTerms_spec o hs acc.terms _ cs hcs hterms
  have hkept : ∀ c ∈ acc.kept, Plain c ∧ ∀ a, c ≠ .neg a := by
    intro c hc
    rcases g.kept c hc with h1 | ⟨h1, a, b, rfl⟩
    · simp at h1
    · exact ⟨⟨.inr (.inr ⟨rfl, h1.1, h1.2⟩), h1⟩, by simp⟩
  have hbase : ∀ c ∈ (if acc.const ≠ 0 then addChild o (.const acc.const) acc.kept else acc.kept),
      Plain c ∧ ∀ a, c ≠ .neg a := by
    intro c hc
    split at hc
    · rcases (mem_addChild o _ _ _).1 hc with rfl | h1
      · exact ⟨⟨trivial, trivial⟩, by simp⟩
      · exact hkept c h1
    · exact hkept c hc
  generalize hb : (if acc.const ≠ 0 then addChild o (.const acc.const) acc.kept else acc.kept) =
    base at *
  have hbe : ∀ e, evalSum e base = evalSum e acc.kept + acc.const := by
    intro e
    rw [← hb]
    split
    · rw [evalSum_addChild, eval]; omega
    · rename_i h0
      have : acc.const = 0 := by simpa using h0
      omega
  have hbs : ∀ e l, slopeSum e l base = 0 := fun e l =>
    slopeSum_recFree e l base ((recFreeList_iff _).2 fun c hc => (hbase c hc).1.2)
  have hbl : recLoops base = [] := by
    rw [List.eq_nil_iff_forall_not_mem]
    intro l hl
    obtain ⟨off, coef, hm⟩ := mem_recLoops.1 hl
    exact (hbase _ hm).1.2.elim
  rw [hbl, List.append_nil] at i5
  refine ⟨cs, rfl, fun e => ?_, fun e l => ?_, fun c hc => ?_, fun ⟨a, ha⟩ => ?_, fun l hl => ?_,
    fun hsing => ?_, fun hr c hc => ?_⟩
  · rw [i1, hbe]
    have := g.val e
    simp only [Acc.val, sgn, evalSum, termSum] at this
    simp at this
    omega
  · rw [i2, hbs]
    have := g.slope e l
    simp [sgn, termSlope] at this
    omega
  · rcases i3 c hc with h1 | h1
    · exact .inl (hbase c h1).1
    · exact h1
  · rcases i4 a ha with h1 | ⟨i, hi⟩
    · exact ((hbase _ h1).2 a rfl).elim
    · exact ⟨i, (hlook _ _ hi).symm⟩
  · obtain ⟨off, coef, hm⟩ := mem_recLoops.1 (i5.mem_iff.1 hl)
    obtain ⟨p, hp, hpe⟩ := List.mem_map.1 hm
    obtain ⟨hp1, hp2⟩ := List.mem_filter.1 hp
    refine ⟨off, coef, ?_⟩
    unfold Live
    rw [← hpe, ← hlook p.1 p.2 hp1]
    simpa using hp2
  · refine i5.nodup_iff.2 (recLoops_nodup ?_ fun l o1 c1 o2 c2 h1 h2 => ?_)
    · exact ((List.filter_sublist (l := acc.terms)).map (·.1)).nodup g.nodup
    · refine hsing l o1 c1 o2 c2 ?_ ?_
      · obtain ⟨p, hp, hpe⟩ := List.mem_map.1 h1
        obtain ⟨hp1, hp2⟩ := List.mem_filter.1 hp
        unfold Live
        rw [← hpe, ← hlook p.1 p.2 hp1]
        simpa using hp2
      · obtain ⟨p, hp, hpe⟩ := List.mem_map.1 h2
        obtain ⟨hp1, hp2⟩ := List.mem_filter.1 hp
        unfold Live
        rw [← hpe, ← hlook p.1 p.2 hp1]
        simpa using hp2
  · rcases i6 (fun p hp => by
      rcases g.keys p.1 (List.mem_map.2 ⟨_, hp, rfl⟩) with h2 | h2
      · simp at h2
      · exact h2.2 hr) c hc with h1 | h1
    · exact (hbase c h1).1
    · exact h1

theorem wrap_plain {cs : List Node} (h : ∀ c ∈ cs, Plain c) : Plain (wrap cs) := by
  unfold wrap
  split
  · exact ⟨trivial, trivial⟩
  · exact h _ (by simp)
  · exact plain_add h

end Verif.ScalarEvo
