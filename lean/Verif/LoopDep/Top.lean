import Verif.LoopDep.Delta

set_option linter.unusedSimpArgs false
set_option linter.unusedVariables false

/-!
# The whole analysis
-/

namespace Verif.LoopDep

open Verif.ScalarEvo
open Verif.ScalarEvo.Spec (Env eval evalSum)
open Verif.LoopDep.Spec

/-! ## Loops with an influence and loops which occur -/

theorem items_growth_zero {ls : List Nat} {l : Nat} : ∀ {cs : List Node},
    (∀ c ∈ cs, Item ls c) → l ∉ recLoops cs → evalSum (oneStep l) cs = evalSum origin cs
  | [], _, _ => rfl
  | c :: cs, hi, hn => by
    rcases hi c (by simp) with ⟨v, rfl⟩ | ⟨l', k, _, _, rfl⟩
    · have hn' : l ∉ recLoops cs := hn
      have ih := items_growth_zero (fun c hc => hi c (List.mem_cons_of_mem _ hc)) hn'
      simp [evalSum, eval, ih]
    · have hn' : l ∉ l' :: recLoops cs := hn
      simp only [List.mem_cons, not_or] at hn'
      have ih := items_growth_zero (fun c hc => hi c (List.mem_cons_of_mem _ hc)) hn'.2
      have hne : l' ≠ l := fun h => hn'.1 h.symm
      simp [evalSum, eval, oneStep, origin, hne] at ih ⊢
      exact ih

theorem items_growth {ls : List Nat} {l : Nat} {k : Int} : ∀ {cs : List Node},
    (∀ c ∈ cs, Item ls c) → (recLoops cs).Nodup → Node.recur l (.const 0) (.const k) ∈ cs →
    evalSum (oneStep l) cs = evalSum origin cs + k
  | [], _, _, h => by cases h
  | c :: cs, hi, hd, hm => by
    have hi' : ∀ c ∈ cs, Item ls c := fun c hc => hi c (List.mem_cons_of_mem _ hc)
    rcases hi c (by simp) with ⟨v, rfl⟩ | ⟨l', k', _, _, rfl⟩
    · have hd' : (recLoops cs).Nodup := hd
      rcases List.mem_cons.1 hm with h | hm
      · cases h
      · have ih := items_growth hi' hd' hm
        simp only [evalSum, eval, ih]; omega
    · have hd' : l' ∉ recLoops cs ∧ (recLoops cs).Nodup := List.nodup_cons.1 hd
      rcases List.mem_cons.1 hm with h | hm
      · cases h
        have ih := items_growth_zero hi' hd'.1
        simp [evalSum, eval, ih, oneStep, origin] at ih ⊢
        omega
      · have hne : l' ≠ l := fun h => hd'.1 (by subst h; exact ScalarEvo.mem_recLoops.2 ⟨_, _, hm⟩)
        have ih := items_growth hi' hd'.2 hm
        simp [evalSum, eval, oneStep, origin, hne] at ih ⊢
        exact ih

theorem norm_growth {ls : List Nat} {n : Node} (h : Norm ls n) {l : Nat} :
    (∃ off coef, Node.recur l off coef ∈ n.recurrents) ↔ growth l n ≠ 0 := by
  cases h with
  | const v => simp [Node.recurrents, growth, eval]
  | recur l' o k hl hk =>
    simp only [Node.recurrents, List.nil_append, List.mem_singleton, Node.recur.injEq]
    by_cases hll : l = l'
    · subst hll
      rw [growth_recur]
      exact ⟨fun _ => hk, fun _ => ⟨_, _, rfl, rfl, rfl⟩⟩
    · have hne : l' ≠ l := fun h => hll h.symm
      simp [growth, eval, oneStep, origin, hll, hne]
  | add cs hi hd h2 =>
    simp only [Node.recurrents, recurrentsList_items hi, onlyRec_eq_recLoops, growth, eval]
    constructor
    · intro hm
      obtain ⟨o, k, hm⟩ := ScalarEvo.mem_recLoops.1 hm
      rcases hi _ hm with ⟨v, h⟩ | ⟨l', k', _, hk', h⟩
      · cases h
      · cases h
        rw [items_growth hi hd hm]; omega
    · intro hg
      refine Decidable.byContradiction fun hn => hg ?_
      rw [items_growth_zero hi hn]; omega

mutual
theorem recurrents_mention {l : Nat} : ∀ {n : Node} {off coef : Node},
    Node.recur l off coef ∈ n.recurrents → Mentions l n
  | .const _, _, _, h => by simp [Node.recurrents] at h
  | .unknown _, _, _, h => by simp [Node.recurrents] at h
  | .cant, _, _, h => by simp [Node.recurrents] at h
  | .recur l' o k, _, _, h => by
    simp only [Node.recurrents, List.mem_cons, List.mem_append] at h
    simp only [Mentions]
    rcases h with h | h | h
    · cases h; exact .inl rfl
    · exact .inr (.inl (recurrents_mention h))
    · exact .inr (.inr (recurrents_mention h))
  | .add cs, _, _, h => by
    simp only [Node.recurrents] at h
    simp only [Mentions]
    exact recurrentsList_mention h
  | .mul a b, _, _, h => by
    simp only [Node.recurrents, List.mem_append] at h
    simp only [Mentions]
    rcases h with h | h
    · exact .inl (recurrents_mention h)
    · exact .inr (recurrents_mention h)
  | .neg a, _, _, h => by
    simp only [Node.recurrents] at h
    simp only [Mentions]
    exact recurrents_mention h
theorem recurrentsList_mention {l : Nat} : ∀ {cs : List Node} {off coef : Node},
    Node.recur l off coef ∈ Node.recurrentsList cs → MentionsList l cs
  | [], _, _, h => by simp [Node.recurrentsList] at h
  | c :: cs, _, _, h => by
    simp only [Node.recurrentsList, List.mem_append] at h
    simp only [MentionsList]
    rcases h with h | h
    · exact .inl (recurrents_mention h)
    · exact .inr (recurrentsList_mention h)
end

theorem pairLoops_mention {l : Nat} {s d : Node} (h : l ∈ pairLoops s d) :
    Mentions l s ∨ Mentions l d := by
  rcases mem_pairLoops.1 h with ⟨_, _, h⟩ | ⟨_, _, h⟩
  · exact .inl (recurrents_mention h)
  · exact .inr (recurrents_mention h)

theorem growth_congr {n m : Node} (h : ∀ e, eval e m = eval e n) (l : Nat) :
    growth l m = growth l n := by simp [growth, h]

theorem base_congr {n m : Node} (h : ∀ e, eval e m = eval e n) : base m = base n := by
  simp [base, h]

theorem halfway_congr {s d s' d' : Node} (hs : ∀ e, eval e s' = eval e s)
    (hd : ∀ e, eval e d' = eval e d) (h : MeetHalfway s' d') : MeetHalfway s d := by
  obtain ⟨l, h1, h2, h3⟩ := h
  rw [growth_congr hs, growth_congr hd, base_congr hs, base_congr hd] at *
  exact ⟨l, h1, h2, h3⟩

/-- A list without duplicates whose elements are all the same. -/
theorem nodup_single {l : Nat} {ls : List Nat} (hd : ls.Nodup) (hm : l ∈ ls)
    (hall : ∀ l' ∈ ls, l' = l) : ls = [l] := by
  match ls, hd, hm, hall with
  | [a], _, _, hall => rw [hall a (by simp)]
  | a :: b :: t, hd, _, hall =>
    have h1 := hall a (by simp)
    have h2 := hall b (by simp)
    subst h1; subst h2
    simp at hd

theorem single_loop {ls : List Nat} {s d : Node} (hs : Norm ls s) (hd : Norm ls d)
    (h : Single s d) : ∃ l, loopForPair s d = some l := by
  obtain ⟨l, hl, hother⟩ := h
  refine ⟨l, ?_⟩
  have hmem : ∀ l', l' ∈ pairLoops s d ↔ (growth l' s ≠ 0 ∨ growth l' d ≠ 0) := by
    intro l'
    rw [mem_pairLoops, norm_growth hs, norm_growth hd]
  have : pairLoops s d = [l] := by
    refine nodup_single ?_ ((hmem l).2 hl) ?_
    · exact nodup_toSet (by simp)
    · intro l' hl'
      refine Decidable.byContradiction fun hne => ?_
      have := hother l' hne
      rcases (hmem l').1 hl' with h | h
      · exact h this.1
      · exact h this.2
  simp [loopForPair, this]

theorem single_congr {s d s' d' : Node} (hs : ∀ e, eval e s' = eval e s)
    (hd : ∀ e, eval e d' = eval e d) (h : Single s d) : Single s' d' := by
  obtain ⟨l, h1, h2⟩ := h
  refine ⟨l, ?_, fun l' hl' => ?_⟩
  · rw [growth_congr hs, growth_congr hd]; exact h1
  · rw [growth_congr hs, growth_congr hd]; exact h2 l' hl'

/-! ## Groups -/

/-- The pair of expressions of a pair of subscripts. -/
def nodes (c : Ctx) (p : Nat × Nat) : Node × Node := (c.node p.1, c.node p.2)

/-- What is known of a group: it has no duplicates and comes from `zs`, and each of its pairs is
coupled with another one, if there is another one. -/
structure GroupOk (c : Ctx) (zs : List (Nat × Nat)) (g : List (Nat × Nat)) : Prop where
  nodup : g.Nodup
  from_ : ∀ p ∈ g, p ∈ zs
  coupled : ∀ p ∈ g, ∀ q ∈ g, q ≠ p → ∃ q' ∈ g, q' ≠ p ∧ Coupled (nodes c p) (nodes c q')

theorem coupled_of_loop {c : Ctx} {l : Nat} {p q : Nat × Nat}
    (hp : l ∈ pairLoops (c.node p.1) (c.node p.2)) (hq : l ∈ pairLoops (c.node q.1) (c.node q.2)) :
    Coupled (nodes c p) (nodes c q) :=
  ⟨l, pairLoops_mention hp, pairLoops_mention hq⟩

theorem groupHas_mem {c : Ctx} {l : Nat} {g : List (Nat × Nat)} (h : c.groupHas l g = true) :
    ∃ p ∈ g, l ∈ pairLoops (c.node p.1) (c.node p.2) := by
  simpa [Ctx.groupHas] using h

theorem merged_ok {c : Ctx} {zs : List (Nat × Nat)} {l : Nat} {g : List (Nat × Nat)}
    {rest : List (List (Nat × Nat))} (hg : GroupOk c zs g) (hl : c.groupHas l g = true)
    (hr : ∀ g ∈ rest, GroupOk c zs g ∧ c.groupHas l g = true) :
    GroupOk c zs (toSet g rest.flatten) := by
  have hall : ∀ p ∈ toSet g rest.flatten, ∃ g', GroupOk c zs g' ∧ c.groupHas l g' = true ∧ p ∈ g' ∧
      ∀ q ∈ g', q ∈ toSet g rest.flatten := by
    intro p hp
    rcases mem_toSet.1 hp with hp | hp
    · exact ⟨g, hg, hl, hp, fun q hq => mem_toSet.2 (.inl hq)⟩
    · obtain ⟨g', hg', hp'⟩ := List.mem_flatten.1 hp
      exact ⟨g', (hr g' hg').1, (hr g' hg').2, hp', fun q hq =>
        mem_toSet.2 (.inr (List.mem_flatten.2 ⟨g', hg', hq⟩))⟩
  refine ⟨nodup_toSet hg.nodup, ?_, ?_⟩
  · intro p hp
    obtain ⟨g', h1, _, h3, _⟩ := hall p hp
    exact h1.from_ p h3
  · intro p hp q hq hne
    obtain ⟨gp, p1, p2, p3, p4⟩ := hall p hp
    obtain ⟨gq, q1, q2, q3, q4⟩ := hall q hq
    by_cases hpq : p ∈ gq
    · obtain ⟨q', h1, h2⟩ := q1.coupled p hpq q q3 hne
      exact ⟨q', q4 q' h1, h2⟩
    · by_cases hex : ∃ r ∈ gp, r ≠ p
      · obtain ⟨r, hr1, hr2⟩ := hex
        obtain ⟨q', h1, h2⟩ := p1.coupled p p3 r hr1 hr2
        exact ⟨q', p4 q' h1, h2⟩
      · obtain ⟨x, hx, hxl⟩ := groupHas_mem p2
        have : x = p := Decidable.byContradiction fun h => hex ⟨x, hx, h⟩
        subst this
        obtain ⟨y, hy, hyl⟩ := groupHas_mem q2
        exact ⟨y, q4 y hy, fun h => hpq (h ▸ hy), coupled_of_loop hxl hyl⟩

theorem mergeFor_ok {c : Ctx} {zs : List (Nat × Nat)} {l : Nat} :
    ∀ {gs : List (List (Nat × Nat))}, (∀ g ∈ gs, GroupOk c zs g) →
      ∀ g ∈ c.mergeFor l gs, GroupOk c zs g
  | [], _, g, h => by simp [Ctx.mergeFor] at h
  | g0 :: rest, hgs, g, h => by
    unfold Ctx.mergeFor at h
    split at h
    · rename_i hl
      rcases List.mem_cons.1 h with rfl | h
      · refine merged_ok (hgs g0 (by simp)) hl ?_
        intro g hg
        rw [List.mem_filter] at hg
        exact ⟨hgs g (by simp [hg.1]), hg.2⟩
      · rw [List.mem_filter] at h
        exact hgs g (by simp [h.1])
    · rcases List.mem_cons.1 h with rfl | h
      · exact hgs _ (by simp)
      · exact mergeFor_ok (fun g hg => hgs g (by simp [hg])) g h

theorem mergeAll_ok {c : Ctx} {zs : List (Nat × Nat)} :
    ∀ {ls : List Nat} {gs : List (List (Nat × Nat))}, (∀ g ∈ gs, GroupOk c zs g) →
      ∀ g ∈ c.mergeAll ls gs, GroupOk c zs g
  | [], _, h => h
  | l :: ls, gs, h => by
    unfold Ctx.mergeAll
    exact mergeAll_ok (mergeFor_ok h)

theorem partition_ok {c : Ctx} {src dst : List Nat} {gs : List (List (Nat × Nat))}
    (h : c.partition src dst = .ok gs) :
    src.length ≤ dst.length ∧ ∀ g ∈ gs, GroupOk c (src.zip dst) g := by
  unfold Ctx.partition at h
  split at h
  · cases h
  · cases okOk h
    refine ⟨by omega, mergeAll_ok ?_⟩
    intro g hg
    obtain ⟨p, hp, rfl⟩ := List.mem_map.1 hg
    refine ⟨by simp, by simpa using hp, ?_⟩
    intro q hq r hr hne
    simp at hq hr
    exact (hne (hr.trans hq.symm)).elim

/-! ## The pairs -/

theorem simp_linear {c : Ctx} {loops : Nat → Loop} (hS : Setting c loops) {n m : Node}
    (hn : Linear loops c.loops n) (h : c.simp n = .ok m) :
    Norm c.loops m ∧ ∀ e, eval e m = eval e n :=
  simplify_linear c.order c.fuel hS.units hn (scOk h)

theorem entryFor_true {c : Ctx} {e1 e2 : Env} {v : List Entry} (hv : VecTrue c e1 e2 v)
    {s d : Node} {l : Nat} (hl : loopForPair s d = some l) {x : Entry}
    (h : c.entryFor v s d = some x) :
    EntryTrue x (e1.iteration l) (e2.iteration l) (c.info l).trips := by
  unfold Ctx.entryFor at h
  rw [hl] at h
  simp only at h
  split at h
  · rename_i hin
    refine hv _ l x ?_ h
    rw [List.getElem?_eq_getElem (List.idxOf_lt_length_of_mem hin), List.getElem_idxOf]
  · cases h

theorem storeFor_true {c : Ctx} {e1 e2 : Env} {v : List Entry} (hv : VecTrue c e1 e2 v)
    {s d : Node} {x : Option Entry} (h : ∀ l, loopForPair s d = some l → ∀ y, x = some y →
      EntryTrue y (e1.iteration l) (e2.iteration l) (c.info l).trips) :
    VecTrue c e1 e2 (c.storeFor v s d x) := by
  unfold Ctx.storeFor
  split
  · rename_i l y hl
    split
    · rename_i hin
      intro i l' z hl' hz
      rw [List.getElem?_set] at hz
      split at hz
      · rename_i hi
        subst hi
        rw [List.getElem?_eq_getElem (List.idxOf_lt_length_of_mem hin), List.getElem_idxOf] at hl'
        cases hl'
        split at hz
        · cases hz; exact h l hl _ rfl
        · cases hz
      · exact hv i l' z hl' hz
    · exact hv
  · exact hv

theorem testPair_sound {c : Ctx} {loops : Nat → Loop} (hS : Setting c loops) {e1 e2 : Env}
    (he1 : Executes c.loops loops e1) (he2 : Executes c.loops loops e2) {p : Nat × Nat}
    (h1 : Linear loops c.loops (c.node p.1)) (h2 : Linear loops c.loops (c.node p.2))
    (heq : eval e1 (c.node p.1) = eval e2 (c.node p.2)) {v : List Entry} {r : Bool × List Entry}
    (h : c.testPair p v = .ok r) :
    r.1 = false ∧ (¬ MeetHalfway (c.node p.1) (c.node p.2) → VecTrue c e1 e2 v →
      VecTrue c e1 e2 r.2) := by
  unfold Ctx.testPair at h
  bstep h s hs
  bstep h d hd
  obtain ⟨hs1, hs2⟩ := simp_linear hS h1 hs
  obtain ⟨hd1, hd2⟩ := simp_linear hS h2 hd
  have heq' : eval e1 s = eval e2 d := by rw [hs2, hd2, heq]
  have hkeep : ∀ {r : Bool × List Entry}, (Except.ok (false, match c.entryFor v s d with
      | some e => c.storeFor v s d (some (Entry.direct .all e))
      | none => v) : Except Err (Bool × List Entry)) = .ok r →
      r.1 = false ∧ (¬ MeetHalfway (c.node p.1) (c.node p.2) → VecTrue c e1 e2 v →
        VecTrue c e1 e2 r.2) := by
    intro r hr
    cases okOk hr
    refine ⟨rfl, fun _ hv => ?_⟩
    simp only
    split
    · rename_i e he
      refine storeFor_true hv ?_
      intro l hl y hy
      cases hy
      exact direct_all_true _ (entryFor_true hv hl he)
    · exact hv
  bstep h sup hsup
  split at h
  · exact hkeep h
  · split at h
    · exact hkeep h
    · split at h
      · rename_i hz
        obtain ⟨a, b, rfl, rfl⟩ := ziv_const hs1 hd1 hz
        cases pureOk h
        refine ⟨?_, fun _ hv => hv⟩
        simp only [eval] at heq'
        simp [zivTest, heq']
      · split at h
        · rename_i hsiv
          obtain ⟨l, hl⟩ := isSIV_loop hsiv
          bstep h w hw
          cases pureOk h
          obtain ⟨k1, k2⟩ := siv_sound hS hs1 hd1 hl he1 he2 heq' hw
          refine ⟨k1, fun hm hv => storeFor_true hv ?_⟩
          intro l' hl' y hy
          rw [hl] at hl'
          cases hl'
          obtain ⟨x0, hx0, hk⟩ := k2 (fun h => hm (halfway_congr hs2 hd2 h)) y hy
          exact hk (entryFor_true hv hl hx0)
        · bstep h g hg
          cases g with
          | true => exact ((gcd_sound hg e1 e2) heq').elim
          | false => cases pureOk h; exact ⟨rfl, fun _ hv => hv⟩

/-- A pair of subscripts which are linear and equal. -/
structure Meets (c : Ctx) (loops : Nat → Loop) (e1 e2 : Env) (p : Nat × Nat) : Prop where
  left : Linear loops c.loops (c.node p.1)
  right : Linear loops c.loops (c.node p.2)
  equal : eval e1 (c.node p.1) = eval e2 (c.node p.2)

theorem testPairs_sound {c : Ctx} {loops : Nat → Loop} (hS : Setting c loops) {e1 e2 : Env}
    (he1 : Executes c.loops loops e1) (he2 : Executes c.loops loops e2) :
    ∀ {gs : List (List (Nat × Nat))} {v : List Entry} {r : Bool × List Entry},
      (∀ g ∈ gs, ∀ p ∈ g, Meets c loops e1 e2 p) → c.testPairs gs v = .ok r →
      r.1 = false ∧ ((∀ g ∈ gs, ∀ p ∈ g, ¬ MeetHalfway (c.node p.1) (c.node p.2)) →
        VecTrue c e1 e2 v → VecTrue c e1 e2 r.2)
  | [], v, r, _, h => by
    unfold Ctx.testPairs at h; cases okOk h; exact ⟨rfl, fun _ hv => hv⟩
  | g :: gs, v, r, hp, h => by
    unfold Ctx.testPairs at h
    have ihp : ∀ g ∈ gs, ∀ p ∈ g, Meets c loops e1 e2 p := fun g' hg' => hp g' (by simp [hg'])
    split at h
    · rename_i p ps
      bstep h w hw
      have hm := hp (p :: ps) (by simp) p (by simp)
      obtain ⟨k1, k2⟩ := testPair_sound hS he1 he2 hm.left hm.right hm.equal hw
      simp only [k1, Bool.false_eq_true, if_false] at h
      obtain ⟨i1, i2⟩ := testPairs_sound hS he1 he2 ihp h
      exact ⟨i1, fun hn hv => i2 (fun g' hg' => hn g' (by simp [hg']))
        (k2 (hn (p :: ps) (by simp) p (by simp)) hv)⟩
    · obtain ⟨i1, i2⟩ := testPairs_sound hS he1 he2 ihp h
      exact ⟨i1, fun hn hv => i2 (fun g' hg' => hn g' (by simp [hg'])) hv⟩

theorem simpPairs_good {c : Ctx} {loops : Nat → Loop} (hS : Setting c loops) {e1 e2 : Env} :
    ∀ {g : List (Nat × Nat)} {ps : List (Node × Node)}, (∀ p ∈ g, Meets c loops e1 e2 p) →
      (∀ p ∈ g, Single (c.node p.1) (c.node p.2) ∧ ¬ MeetHalfway (c.node p.1) (c.node p.2)) →
      c.simpPairs g = .ok ps → ∀ p ∈ ps, GoodPair c e1 e2 p
  | [], ps, _, _, h => by unfold Ctx.simpPairs at h; rw [← okOk h]; simp
  | p :: g, ps, hm, hs, h => by
    unfold Ctx.simpPairs at h
    bstep h s hs'
    bstep h d hd'
    bstep h ps' hps'
    cases pureOk h
    have ih := simpPairs_good hS (fun q hq => hm q (by simp [hq])) (fun q hq => hs q (by simp [hq]))
      hps'
    have m := hm p (by simp)
    obtain ⟨hs1, hs2⟩ := simp_linear hS m.left hs'
    obtain ⟨hd1, hd2⟩ := simp_linear hS m.right hd'
    intro q hq
    rcases List.mem_cons.1 hq with rfl | hq
    · exact ⟨hs1, hd1, single_loop hs1 hd1 (single_congr hs2 hd2 (hs p (by simp)).1),
        by rw [hs2, hd2]; exact m.equal, fun h => (hs p (by simp)).2 (halfway_congr hs2 hd2 h)⟩
    · exact ih q hq

theorem testGroups_sound {c : Ctx} {loops : Nat → Loop} (hS : Setting c loops) {e1 e2 : Env}
    (he1 : Executes c.loops loops e1) (he2 : Executes c.loops loops e2) :
    ∀ {gs : List (List (Nat × Nat))} {v : List Entry} {r : Bool × List Entry},
      (∀ g ∈ gs, ∀ p ∈ g, Meets c loops e1 e2 p) →
      (∀ g ∈ gs, ∀ p ∈ g, Single (c.node p.1) (c.node p.2) ∧
        ¬ MeetHalfway (c.node p.1) (c.node p.2)) → c.testGroups gs v = .ok r →
      r.1 = false ∧ (VecTrue c e1 e2 v → VecTrue c e1 e2 r.2)
  | [], v, r, _, _, h => by
    unfold Ctx.testGroups at h; cases okOk h; exact ⟨rfl, fun hv => hv⟩
  | g :: gs, v, r, hp, hs, h => by
    unfold Ctx.testGroups at h
    bstep h ps hps
    bstep h w hw
    obtain ⟨k1, k2⟩ := deltaTest_sound hS he1 he2
      (simpPairs_good hS (hp g (by simp)) (hs g (by simp)) hps) hw
    simp only [k1, Bool.false_eq_true, if_false] at h
    obtain ⟨i1, i2⟩ := testGroups_sound hS he1 he2 (fun g' hg' => hp g' (by simp [hg']))
      (fun g' hg' => hs g' (by simp [hg'])) h
    exact ⟨i1, fun hv => i2 (k2 hv)⟩

theorem ignored_true {t1 t2 : Int} {trips : Option Int} {y : Entry}
    (h : EntryTrue y t1 t2 trips) : EntryTrue (Entry.ignored y) t1 t2 trips where
  lt := h.lt
  eq := h.eq
  gt := h.gt
  some := h.some
  distance := by simp [Entry.ignored]
  point := by simp [Entry.ignored]
  first := h.first
  last := h.last

theorem markUnused_get (used : List Nat) : ∀ (ls : List Nat) (v : List Entry) (i : Nat) (x : Entry),
    (markUnused used ls v)[i]? = some x → ∃ y, v[i]? = some y ∧ (x = y ∨ x = Entry.ignored y)
  | [], v, i, x, h => by unfold markUnused at h; exact ⟨x, h, .inl rfl⟩
  | l :: ls, [], i, x, h => by simp [markUnused] at h
  | l :: ls, e :: v, i, x, h => by
    simp only [markUnused] at h
    cases i with
    | zero =>
      simp at h; subst h
      refine ⟨e, rfl, ?_⟩
      split
      · exact .inl rfl
      · exact .inr rfl
    | succ i =>
      simp only [List.getElem?_cons_succ] at h ⊢
      exact markUnused_get used ls v i x h

theorem markUnused_true {c : Ctx} {e1 e2 : Env} {used : List Nat} {v : List Entry}
    (hv : VecTrue c e1 e2 v) : VecTrue c e1 e2 (markUnused used c.loops v) := by
  intro i l x hl hx
  obtain ⟨y, hy, rfl | rfl⟩ := markUnused_get used _ v i x hx
  · exact hv i l _ hl hy
  · exact ignored_true (hv i l _ hl hy)

theorem freshAll_true {c : Ctx} {e1 e2 : Env} {v : List Entry} :
    VecTrue c e1 e2 (freshAll v) := by
  intro i l x hl hx
  rw [freshAll, List.getElem?_map] at hx
  cases hv : v[i]? with
  | none => rw [hv] at hx; cases hx
  | some y => rw [hv] at hx; cases hx; exact fresh_true _ _ _

/-! ## The pointers -/

theorem locates_var {c : Ctx} {e : Env} {p r : Nat} {path : List Int} (hp : c.ptr p = .var)
    (h : Locates c e p r path) : r = p ∧ path = [] := by
  cases h with
  | var => exact ⟨rfl, rfl⟩
  | chain h => rw [hp] at h; cases h
  | inBounds h => rw [hp] at h; cases h

theorem locates_chain {c : Ctx} {e : Env} {p b r : Nat} {subs : List Nat} {path : List Int}
    (hp : c.ptr p = .chain b subs) (hb : c.ptr b = .var) (h : Locates c e p r path) :
    r = b ∧ path = subs.map fun i => eval e (c.node i) := by
  cases h with
  | var h => rw [hp] at h; cases h
  | inBounds h => rw [hp] at h; cases h
  | chain h hl =>
    rw [hp] at h
    cases h
    obtain ⟨rfl, rfl⟩ := locates_var hb hl
    exact ⟨rfl, by simp⟩

theorem prefix_zip {f g : Nat → Int} : ∀ {xs ys : List Nat},
    (xs.map f <+: ys.map g ∨ ys.map g <+: xs.map f) → ∀ p ∈ xs.zip ys, f p.1 = g p.2
  | [], ys, _, p, hp => by simp at hp
  | x :: xs, [], _, p, hp => by simp at hp
  | x :: xs, y :: ys, h, p, hp => by
    simp only [List.map_cons, List.cons_prefix_cons] at h
    simp only [List.zip_cons_cons, List.mem_cons] at hp
    rcases hp with rfl | hp
    · rcases h with h | h
      · exact h.1
      · exact h.1.symm
    · exact prefix_zip (h.imp (·.2) (·.2)) p hp

theorem getDependence_sound {c : Ctx} {loops : Nat → Loop} (hS : Setting c loops) {o : Sched}
    (ho : Fair o) {src dst : Nat} (hR : Regular c loops src dst) {v : List Entry}
    {r : Bool × List Entry} (h : c.getDependence o src dst v = .ok r) {e1 e2 : Env}
    (he1 : Executes c.loops loops e1) (he2 : Executes c.loops loops e2)
    (hc : Conflict c e1 e2 src dst) :
    r.1 = false ∧
    (NoHalfway c src dst →
      VecTrue c e1 e2 v → VecTrue c e1 e2 r.2) := by
  obtain ⟨rt, p1, p2, hl1, hl2, hpre⟩ := hc
  unfold Ctx.getDependence at h
  split at h
  · cases h
  bstep h used hused
  rcases hR.flatSrc with hv1 | ⟨b1, s1, hp1, hb1⟩
  · obtain ⟨rfl, rfl⟩ := locates_var hv1 hl1
    rcases hR.flatDst with hv2 | ⟨b2, s2, hp2, hb2⟩
    · obtain ⟨rfl, rfl⟩ := locates_var hv2 hl2
      simp only [hv1, ne_eq, not_true, if_false] at h
      cases pureOk h
      exact ⟨rfl, fun _ _ => freshAll_true⟩
    · obtain ⟨rfl, rfl⟩ := locates_chain hp2 hb2 hl2
      simp only [hv1, hp2, ne_eq, not_true, if_false] at h
      cases pureOk h
      exact ⟨rfl, fun _ _ => freshAll_true⟩
  · obtain ⟨rfl, rfl⟩ := locates_chain hp1 hb1 hl1
    rcases hR.flatDst with hv2 | ⟨b2, s2, hp2, hb2⟩
    · obtain ⟨rfl, rfl⟩ := locates_var hv2 hl2
      simp only [hv2, hp1, ne_eq, not_true, if_false] at h
      cases pureOk h
      exact ⟨rfl, fun _ _ => freshAll_true⟩
    · obtain ⟨rfl, rfl⟩ := locates_chain hp2 hb2 hl2
      simp only [hp1, hp2, hb1, ne_eq, not_true, if_false] at h
      bstep h gs hgs
      have hgo := (partition_ok hgs).2
      have hmeets : ∀ p ∈ s1.zip s2, Meets c loops e1 e2 p := by
        intro p hp
        have hz := List.of_mem_zip hp
        exact ⟨hR.linear src _ s1 (.inl rfl) hp1 _ hz.1,
          hR.linear dst _ s2 (.inr rfl) hp2 _ hz.2,
          prefix_zip (f := fun i => eval e1 (c.node i)) (g := fun i => eval e2 (c.node i)) hpre p hp⟩
      -- groups in the order of the schedule
      have hgo' : ∀ (f : List (Nat × Nat) → Bool), ∀ g ∈ o.groups ((gs.map o.pairs).filter f),
          f g = true ∧ GroupOk c (s1.zip s2) g := by
        intro f g hg
        have hg := (ho.groups _).mem_iff.1 hg
        rw [List.mem_filter] at hg
        obtain ⟨g0, hg0, rfl⟩ := List.mem_map.1 hg.1
        have hperm := ho.pairs g0
        have h0 := hgo g0 hg0
        refine ⟨hg.2, hperm.nodup_iff.2 h0.nodup, fun p hp => h0.from_ p (hperm.mem_iff.1 hp), ?_⟩
        intro p hp q hq hne
        obtain ⟨q', k1, k2⟩ := h0.coupled p (hperm.mem_iff.1 hp) q (hperm.mem_iff.1 hq) hne
        exact ⟨q', hperm.mem_iff.2 k1, k2⟩
      bstep h w hw
      obtain ⟨k1, k2⟩ := testPairs_sound hS he1 he2
        (fun g hg p hp => hmeets p ((hgo' _ g hg).2.from_ p hp)) hw
      simp only [k1, Bool.false_eq_true, if_false] at h
      have hsingle : ∀ g ∈ o.groups ((gs.map o.pairs).filter fun g => g.length != 1), ∀ p ∈ g,
          Single (c.node p.1) (c.node p.2) ∧ ¬ MeetHalfway (c.node p.1) (c.node p.2) := by
        intro g hg p hp
        obtain ⟨hlen, hG⟩ := hgo' _ g hg
        have hex : ∃ q ∈ g, q ≠ p := by
          match g, hp, hlen, hG.nodup with
          | [a], _, hlen, _ => simp at hlen
          | a :: b :: t, hp, _, hnd =>
            simp only [List.nodup_cons, List.mem_cons, not_or] at hnd
            by_cases hap : a = p
            · exact ⟨b, by simp, fun h => hnd.1.1 (hap.trans h.symm)⟩
            · exact ⟨a, by simp, hap⟩
        obtain ⟨q, hq, hne⟩ := hex
        obtain ⟨q', hq', hne', hcp⟩ := hG.coupled p hp q hq hne
        exact hR.coupled _ _ s1 s2 hp1 hp2 p (hG.from_ p hp) q' (hG.from_ q' hq')
          (fun h => hne' h.symm) hcp
      obtain ⟨i1, i2⟩ := testGroups_sound hS he1 he2
        (fun g hg p hp => hmeets p ((hgo' _ g hg).2.from_ p hp)) hsingle h
      refine ⟨i1, fun hn hv => i2 (k2 ?_ (markUnused_true hv))⟩
      intro g hg p hp
      exact hn _ _ s1 s2 hp1 hp2 p ((hgo' _ g hg).2.from_ p hp)

end Verif.LoopDep
