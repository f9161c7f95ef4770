import Verif.DomCheck.Spec
import Verif.DomCheck.Sound
set_option linter.unusedSimpArgs false
set_option linter.unusedVariables false
set_option linter.unusedSectionVars false
namespace Verif.DomCheck
open Verif.Cfa Verif.Cfa.Spec Spec
variable {B : Type} [DecidableEq B]

theorem mem_predsOf {ordered : List B} {succ : B → List B} {u v : B} :
    u ∈ predsOf ordered succ v ↔ u ∈ ordered ∧ v ∈ succ u := by
  unfold predsOf
  simp only [List.mem_flatMap, List.mem_map, List.mem_filter, decide_eq_true_eq]
  constructor
  · rintro ⟨a, ha, x, ⟨hx, rfl⟩, rfl⟩; exact ⟨ha, hx⟩
  · rintro ⟨h1, h2⟩; exact ⟨u, h1, v, ⟨h2, rfl⟩, rfl⟩

theorem succ_ssucc {f : Func B} {u v : B} (h : v ∈ f.succ u) : v ∈ f.ssucc u :=
  List.mem_append_right _ h

theorem spred_iff {f : Func B} (ok : FuncOk f) (u v : B) : u ∈ f.spred v ↔ v ∈ f.ssucc u := by
  unfold Func.spred
  rw [mem_predsOf]
  exact ⟨fun h => h.2, fun h => ⟨(ok.closed u v h).1, h⟩⟩

theorem pred_iff {f : Func B} (ok : FuncOk f) (u v : B) : u ∈ f.pred v ↔ v ∈ f.succ u := by
  unfold Func.pred
  rw [mem_predsOf]
  exact ⟨fun h => h.2, fun h => ⟨(ok.closed u v (succ_ssucc h)).1, h⟩⟩

theorem reach_ordered {f : Func B} (ok : FuncOk f) {a b : B} (ha : a ∈ f.ordered)
    (h : Reach (Flow f) a b) : b ∈ f.ordered := by
  induction h with
  | refl => exact ha
  | tail _ he _ => exact (ok.closed _ _ (succ_ssucc he)).2

theorem head_mem {l : List B} {a : B} (h : l.head? = some a) : a ∈ l := by
  cases l with
  | nil => cases h
  | cons x l => simp at h; simp [h]

/-! ## Reachability -/
section
variable [Blocks B]

theorem reachLoop_sound (succ : B → List B) (marked stack : List B) :
    ∀ x ∈ reachLoop succ marked stack, x ∈ marked ∨ ∃ s ∈ stack, Reach (fun u v => v ∈ succ u) s x := by
  fun_induction reachLoop succ marked stack with
  | case1 marked => intro x hx; exact .inl hx
  | case2 marked b stack h ih =>
    intro x hx
    rcases ih x hx with h1 | ⟨s, hs, hr⟩
    · exact .inl h1
    · exact .inr ⟨s, by simp [hs], hr⟩
  | case3 marked b stack h ih =>
    intro x hx
    rcases ih x hx with h1 | ⟨s, hs, hr⟩
    · rcases List.mem_cons.mp h1 with rfl | h1
      · exact .inr ⟨x, by simp, .refl _⟩
      · exact .inl h1
    · rw [List.mem_append, List.mem_reverse] at hs
      rcases hs with hs | hs
      · exact .inr ⟨b, by simp, Reach.head hs hr⟩
      · exact .inr ⟨s, by simp [hs], hr⟩

theorem reachLoop_closed (succ : B → List B) (marked stack : List B)
    (inv : ∀ u ∈ marked, ∀ v ∈ succ u, v ∈ marked ∨ v ∈ stack) :
    (∀ x, x ∈ marked ∨ x ∈ stack → x ∈ reachLoop succ marked stack) ∧
    ∀ u ∈ reachLoop succ marked stack, ∀ v ∈ succ u, v ∈ reachLoop succ marked stack := by
  fun_induction reachLoop succ marked stack with
  | case1 marked =>
    refine ⟨fun x h => h.resolve_right (by simp), fun u hu v hv => ?_⟩
    exact (inv u hu v hv).resolve_right (by simp)
  | case2 marked b stack h ih =>
    obtain ⟨h1, h2⟩ := ih (fun u hu v hv => by
      rcases inv u hu v hv with k | k
      · exact .inl k
      · rcases List.mem_cons.mp k with rfl | k
        · exact .inl h
        · exact .inr k)
    refine ⟨fun x hx => h1 x ?_, h2⟩
    rcases hx with hx | hx
    · exact .inl hx
    · rcases List.mem_cons.mp hx with rfl | hx
      · exact .inl h
      · exact .inr hx
  | case3 marked b stack h ih =>
    obtain ⟨h1, h2⟩ := ih (fun u hu v hv => by
      simp only [List.mem_cons, List.mem_append, List.mem_reverse] at hu ⊢
      rcases hu with rfl | hu
      · exact .inr (.inl hv)
      · rcases inv u hu v hv with k | k
        · exact .inl (.inr k)
        · rcases List.mem_cons.mp k with rfl | k
          · exact .inl (.inl rfl)
          · exact .inr (.inr k))
    refine ⟨fun x hx => h1 x ?_, h2⟩
    simp only [List.mem_cons, List.mem_append, List.mem_reverse] at hx ⊢
    rcases hx with hx | hx | hx
    · exact .inl (.inr hx)
    · exact .inl (.inl hx)
    · exact .inr (.inr hx)

theorem mem_reachability {fs : List (Func B)} {b : B} :
    b ∈ reachability fs ↔ ∃ f ∈ fs, ∃ first, ReachableIn f first b := by
  unfold reachability
  rw [List.mem_flatMap]
  refine exists_congr fun f => and_congr_right fun _ => ?_
  cases h : f.ordered.head? with
  | none => simp [ReachableIn, h]
  | some first =>
    simp only [ReachableIn, h, Option.some.injEq]
    obtain ⟨h1, h2⟩ := reachLoop_closed f.succ [] [first] (by simp)
    constructor
    · intro hb
      rcases reachLoop_sound f.succ [] [first] b hb with h | ⟨s, hs, hr⟩
      · cases h
      · simp at hs; subst hs; exact ⟨s, rfl, hr⟩
    · rintro ⟨_, rfl, hr⟩
      induction hr with
      | refl => exact h1 _ (.inr (by simp))
      | tail _ he ih => exact h2 _ ih _ he

/-! ## Immediate dominators of one function -/

/-- Facts about the roots `ComputeAugmentedCFG` finds. -/
theorem augmented_some {f : Func B} (ok : FuncOk f) : ∃ src snk,
    f.augmented = some
      (fun b => if b ∈ snk then f.pseudoExit :: f.ssucc b
        else if b = f.pseudoEntry then src else f.succ b,
       fun b => if b = f.pseudoExit then snk
        else if b ∈ src then f.pseudoEntry :: f.spred b else f.pred b) ∧
    (∀ r ∈ src, r ∈ f.ordered) ∧ (∀ r ∈ snk, r ∈ f.ordered) ∧
    traversalRoots f.ordered f.ssucc f.spred = some src ∧
    traversalRoots f.ordered.reverse f.spred f.ssucc = some snk := by
  obtain ⟨src, s1, s2, -⟩ := traversal_roots_cover f.ssucc f.spred (spred_iff ok) f.ordered ok.nodup
  obtain ⟨snk, t1, t2, -⟩ := traversal_roots_cover f.spred f.ssucc (fun u v => (spred_iff ok v u).symm)
    f.ordered.reverse ((List.reverse_perm f.ordered).nodup_iff.mpr ok.nodup)
  exact ⟨src, snk, by simp only [Func.augmented, s1, t1], s2, fun r hr => by simpa using t2 r hr, s1, t1⟩

theorem post_mem {asucc : B → List B} {first x : B} :
    x ∈ postOf (depthFirst asucc (fun _ => false) first) ↔ Reach (fun u v => v ∈ asucc u) first x := by
  have f := dfsFacts (depthFirst_isDfs asucc (fun _ => false) first)
  have hEdge : Edge asucc (fun _ => false) = (fun u v => v ∈ asucc u) := by
    funext u v; simp [Edge]
  rw [f.perm.mem_iff, f.mem, hEdge]

theorem func_sound {f : Func B} (ok : FuncOk f) {fuel e} (h : f.idomEdges fuel = some e) :
    (∀ b x, (b, x) ∈ e → b ∈ members f ∧ x ∈ members f) ∧
    ∀ first b d, ReachableIn f first b → Chain e b d → Dominates (Flow f) first d b := by
  unfold Func.idomEdges at h
  cases hh : f.ordered.head? with
  | none =>
    rw [hh] at h; cases h
    refine ⟨fun b x h => (by cases h), fun first b d hr => ?_⟩
    rw [ReachableIn, hh] at hr; cases hr.1
  | some first =>
    obtain ⟨src, snk, haug, hsrc, hsnk, -⟩ := augmented_some ok
    rw [hh, haug] at h
    dsimp only at h
    cases hc : calculateDominators fuel
        (postOf (depthFirst (fun b => if b ∈ snk then f.pseudoExit :: f.ssucc b
        else if b = f.pseudoEntry then src else f.succ b) (fun _ => false) first))
        (fun b => if b = f.pseudoExit then snk
        else if b ∈ src then f.pseudoEntry :: f.spred b else f.pred b) with
    | none => rw [hc] at h; cases h
    | some out =>
      rw [hc] at h
      cases h
      have fact := dfsFacts (depthFirst_isDfs (fun b => if b ∈ snk then f.pseudoExit :: f.ssucc b
        else if b = f.pseudoEntry then src else f.succ b) (fun _ => false) first)
      have hmem := head_mem hh
      have hasucc : ∀ u v, v ∈ f.succ u → v ∈ (if u ∈ snk then f.pseudoExit :: f.ssucc u
          else if u = f.pseudoEntry then src else f.succ u) := by
        intro u v hv
        have hu := (ok.closed u v (succ_ssucc hv)).1
        split
        · exact List.mem_cons_of_mem _ (succ_ssucc hv)
        · rw [if_neg (by rintro rfl; exact ok.entry hu)]; exact hv
      obtain ⟨k1, k2⟩ := calculateDominators_sound fuel _ _ first
        (fact.perm.nodup_iff.mpr fact.preNodup) fact.last (Flow f)
        (by
          intro u v huv
          have hv := (ok.closed u v (succ_ssucc huv)).2
          rw [if_neg (by rintro rfl; exact ok.exit hv)]
          split
          · exact List.mem_cons_of_mem _ ((spred_iff ok u v).mpr (succ_ssucc huv))
          · exact (pred_iff ok u v).mpr huv)
        (by
          intro v hv
          rw [post_mem]
          induction hv with
          | refl => exact .refl _
          | tail _ he ih => exact .tail ih (hasucc _ _ he))
        out hc
      have members_post : ∀ x, x ∈ postOf (depthFirst (fun b => if b ∈ snk then f.pseudoExit :: f.ssucc b
        else if b = f.pseudoEntry then src else f.succ b) (fun _ => false) first) → x ∈ members f := by
        intro x hx
        rw [post_mem] at hx
        induction hx with
        | refl => simp [members, hmem]
        | tail _ he ih =>
          split at he
          · rcases List.mem_cons.mp he with rfl | he
            · simp [members]
            · simp [members, (ok.closed _ _ he).2]
          · split at he
            · simp [members, hsrc _ he]
            · simp [members, (ok.closed _ _ (succ_ssucc he)).2]
      refine ⟨fun b x hbx => ?_, fun first' b d hr hch => ?_⟩
      · have := k1 b x (List.mem_filter.mp hbx).1
        exact ⟨members_post _ this.1, members_post _ this.2⟩
      · rw [ReachableIn, hh] at hr
        obtain ⟨h1, h2⟩ := hr
        cases h1
        refine k2 b d h2 ?_
        clear h2
        induction hch with
        | refl => exact .refl _
        | step he hne _ ih => exact .step (List.mem_filter.mp he).1 hne ih

theorem idomEdges_mem {fuel} : ∀ {fs : List (Func B)} {es}, idomEdges fuel fs = some es →
    (∀ b x, (b, x) ∈ es → ∃ g ∈ fs, ∃ e, g.idomEdges fuel = some e ∧ (b, x) ∈ e) ∧
    ∀ g ∈ fs, ∃ e, g.idomEdges fuel = some e ∧ ∀ p ∈ e, p ∈ es
  | [], es, h => by cases h; simp
  | f :: fs, es, h => by
    simp only [idomEdges] at h
    cases h1 : f.idomEdges fuel with
    | none => rw [h1] at h; cases h
    | some e =>
      rw [h1] at h
      dsimp only at h
      cases h2 : idomEdges fuel fs with
      | none => rw [h2] at h; cases h
      | some es' =>
        rw [h2] at h
        cases h
        obtain ⟨k1, k2⟩ := idomEdges_mem h2
        refine ⟨fun b x hbx => ?_, fun g hg => ?_⟩
        · rcases List.mem_append.mp hbx with hbx | hbx
          · exact ⟨f, by simp, e, h1, hbx⟩
          · obtain ⟨g, hg, e', h3, h4⟩ := k1 b x hbx
            exact ⟨g, by simp [hg], e', h3, h4⟩
        · rcases List.mem_cons.mp hg with rfl | hg
          · exact ⟨e, h1, fun p hp => List.mem_append_left _ hp⟩
          · obtain ⟨e', h3, h4⟩ := k2 g hg
            exact ⟨e', h3, fun p hp => List.mem_append_right _ (h4 p hp)⟩

theorem same_func {fs : List (Func B)}
    (hd : fs.Pairwise fun f g => ∀ b, b ∈ members f → b ∉ members g) {f g : Func B}
    (hf : f ∈ fs) (hg : g ∈ fs) {b : B} (h1 : b ∈ members f) (h2 : b ∈ members g) : f = g := by
  induction hd with
  | nil => cases hf
  | cons h _ ih =>
    rcases List.mem_cons.mp hf with e | hf <;> rcases List.mem_cons.mp hg with e' | hg
    · rw [e, e']
    · exact absurd h2 (h g hg b (e ▸ h1))
    · exact absurd h1 (h f hf b (e' ▸ h2))
    · exact ih hf hg

theorem lookup_mem {l : List (B × B)} {b x : B} (h : l.lookup b = some x) : (b, x) ∈ l := by
  induction l with
  | nil => cases h
  | cons a l ih =>
    obtain ⟨c, y⟩ := a
    rw [List.lookup_cons] at h
    by_cases hc : b = c
    · subst hc; simp at h; simp [h]
    · have : (b == c) = false := by simpa using hc
      rw [this] at h
      exact List.mem_cons_of_mem _ (ih h)

theorem dominates_chain {es : List (B × B)} {d : B} : ∀ {fuel b},
    dominates (fun b => es.lookup b) d fuel b = some true → Chain es b d
  | 0, b, h => by cases h
  | fuel + 1, b, h => by
    unfold dominates at h
    by_cases hd : d = b
    · subst hd; exact .refl _
    · rw [if_neg hd] at h
      cases hl : es.lookup b with
      | none => rw [hl] at h; cases h
      | some x =>
        rw [hl] at h
        dsimp only at h
        by_cases hx : x = b
        · rw [if_pos hx] at h; cases h
        · rw [if_neg hx] at h
          exact .step (lookup_mem hl) (Ne.symm hx) (dominates_chain h)

theorem chain_func {m : Module B} (ok : ModuleOk m) {fuel es} (h : idomEdges fuel m.funcs = some es)
    {f} (hf : f ∈ m.funcs) {e} (he : f.idomEdges fuel = some e) {b d : B} (hch : Chain es b d)
    (hb : b ∈ members f) : Chain e b d := by
  induction hch with
  | refl => exact .refl _
  | @step b x d hbx hne _ ih =>
    obtain ⟨g, hg, e', h1, h2⟩ := (idomEdges_mem h).1 b x hbx
    have hm := (func_sound (ok.funcs g hg) h1).1 b x h2
    have : f = g := same_func ok.disjoint hf hg hb hm.1
    subst this
    rw [he] at h1
    cases h1
    exact .step h2 hne (ih hm.2)

/-- A positive answer of `dominates` on a reachable block is right. -/
theorem dominates_sound {m : Module B} (ok : ModuleOk m) {fuel es}
    (h : idomEdges fuel m.funcs = some es) {d b : B} (hb : Reachable m b) {k}
    (hd : dominates (fun b => es.lookup b) d k b = some true) : DominatesReachable m d b := by
  obtain ⟨f, hf, first, hr⟩ := hb
  obtain ⟨e, he, -⟩ := (idomEdges_mem h).2 f hf
  refine ⟨f, hf, first, hr, ?_⟩
  have hmem : b ∈ members f := by
    have := reach_ordered (ok.funcs f hf) (head_mem hr.1) hr.2
    simp [members, this]
  exact (func_sound (ok.funcs f hf) he).2 first b d hr (chain_func ok h hf he (dominates_chain hd) hmem)

end

/-! ## The loops over the instructions -/

theorem mem_usesOf {m : Module B} {w u} : u ∈ m.usesOf w ↔ u ∈ m.insts ∧ w ∈ u.uses := by
  unfold Module.usesOf
  simp only [List.mem_flatMap, List.mem_map, List.mem_filter, decide_eq_true_eq]
  constructor
  · rintro ⟨a, ha, x, ⟨hx, rfl⟩, rfl⟩; exact ⟨ha, hx⟩
  · rintro ⟨h1, h2⟩; exact ⟨u, h1, w, ⟨h2, rfl⟩, rfl⟩

theorem id_unique {m : Module B} (ok : ModuleOk m) {a b : Inst B} (ha : a ∈ m.insts) (hb : b ∈ m.insts)
    (h0 : a.id ≠ 0) (h : a.id = b.id) : a = b := by
  have key : ∀ {l : List (Inst B)}, l.Pairwise (fun a b => a.id ≠ b.id) → a ∈ l → b ∈ l → a = b := by
    intro l hl
    induction hl with
    | nil => intro ha; cases ha
    | cons hh _ ih =>
      intro ha hb
      rcases List.mem_cons.mp ha with ha1 | ha1 <;> rcases List.mem_cons.mp hb with hb1 | hb1
      · rw [ha1, hb1]
      · exact absurd (ha1 ▸ h) (hh b hb1)
      · exact absurd (hb1 ▸ h.symm) (hh a ha1)
      · exact ih ha1 hb1
  exact key ok.ids (List.mem_filter.mpr ⟨ha, by simpa using h0⟩)
    (List.mem_filter.mpr ⟨hb, by rw [← h]; simpa using h0⟩)

theorem findDef_iff {m : Module B} (ok : ModuleOk m) {w d} :
    m.findDef w = some d ↔ d ∈ m.insts ∧ d.id = w ∧ w ≠ 0 := by
  unfold Module.findDef
  constructor
  · intro h
    exact ⟨List.mem_of_find?_eq_some h, by simpa using List.find?_some h⟩
  · rintro ⟨h1, h2, h3⟩
    cases hf : m.insts.find? (fun i => decide (i.id = w ∧ w ≠ 0)) with
    | none =>
      rw [List.find?_eq_none] at hf
      exact absurd (show d.id = w ∧ w ≠ 0 from ⟨h2, h3⟩) (by simpa using hf d h1)
    | some d' =>
      have h4 := List.mem_of_find?_eq_some hf
      have h5 : d'.id = w ∧ w ≠ 0 := by simpa using List.find?_some hf
      rw [id_unique ok h4 h1 (by rw [h5.1]; exact h5.2) (by rw [h5.1, h2])]

section
variable (m : Module B) (idom : B → Option B) (reachable : List B) (fuel : Nat)

/-- The use `u` of an id defined in block `db` passes. -/
def UseOk (db : B) (u : Inst B) : Prop :=
  ∀ ub, u.block = some ub → ub ∈ reachable → u.phi = false → dominates idom db fuel ub = some true

/-- The definition `d` passes, apart from phis. -/
def DefOk (d : Inst B) : Prop :=
  d.id ≠ 0 → ∀ fn, d.func = some fn → ∀ u ∈ m.usesOf d.id,
    (∀ db, d.block = some db → UseOk idom reachable fuel db u) ∧
    (d.block = none → ∀ g, u.func = some g → g = fn)

/-- `u` is a phi in a reachable block. -/
def LivePhi (u : Inst B) : Prop := u.phi = true ∧ ∃ ub, u.block = some ub ∧ ub ∈ reachable

/-- `phis` holds, up to ids, the phis among `us`. -/
def Collected (us phis : List (Inst B)) : Prop :=
  ∀ u ∈ us, LivePhi reachable u → ∃ v ∈ phis, v.id = u.id

theorem checkBlockUses_true (db : B) : ∀ (us phis phis' : List (Inst B)),
    checkBlockUses idom reachable fuel db us phis = some (phis', true) →
    (∀ u ∈ us, UseOk idom reachable fuel db u) ∧ (∀ v ∈ phis, v ∈ phis') ∧
    Collected reachable us phis' ∧ (∀ v ∈ phis', v ∈ phis ∨ (v ∈ us ∧ LivePhi reachable v))
  | [], phis, phis', h => by
    cases h
    exact ⟨by simp, fun v hv => hv, by simp [Collected], fun v hv => .inl hv⟩
  | use :: rest, phis, phis', h => by
    unfold checkBlockUses at h
    -- the head passes without changing the list
    have pass : ∀ (_ : checkBlockUses idom reachable fuel db rest phis = some (phis', true))
        (_ : UseOk idom reachable fuel db use)
        (_ : LivePhi reachable use → ∃ v ∈ phis, v.id = use.id),
        (∀ u ∈ use :: rest, UseOk idom reachable fuel db u) ∧ (∀ v ∈ phis, v ∈ phis') ∧
        Collected reachable (use :: rest) phis' ∧
        (∀ v ∈ phis', v ∈ phis ∨ (v ∈ use :: rest ∧ LivePhi reachable v)) := by
      intro h hu hp
      obtain ⟨k1, k2, k3, k4⟩ := checkBlockUses_true db rest phis phis' h
      refine ⟨?_, k2, ?_, ?_⟩
      · intro u hu'
        rcases List.mem_cons.mp hu' with rfl | hu'
        · exact hu
        · exact k1 u hu'
      · intro u hu' hl
        rcases List.mem_cons.mp hu' with rfl | hu'
        · obtain ⟨v, hv, e⟩ := hp hl
          exact ⟨v, k2 v hv, e⟩
        · exact k3 u hu' hl
      · intro v hv
        rcases k4 v hv with h | h
        · exact .inl h
        · exact .inr ⟨by simp [h.1], h.2⟩
    cases hb : use.block with
    | none =>
      rw [hb] at h
      refine pass h ?_ ?_
      · intro ub hub; rw [hb] at hub; cases hub
      · rintro ⟨-, ub, hub, -⟩; rw [hb] at hub; cases hub
    | some ub =>
      rw [hb] at h
      dsimp only at h
      by_cases hr : ub ∉ reachable
      · rw [if_pos hr] at h
        refine pass h ?_ ?_
        · intro ub' hub hm; rw [hb] at hub; cases hub; exact absurd hm hr
        · rintro ⟨-, ub', hub, hm⟩; rw [hb] at hub; cases hub; exact absurd hm hr
      · rw [if_neg hr] at h
        have hr' : ub ∈ reachable := by simpa using hr
        by_cases hp : use.phi = true
        · rw [if_pos hp] at h
          have hu : UseOk idom reachable fuel db use := by
            intro _ _ _ hf; rw [hp] at hf; cases hf
          by_cases hm : use.id ∈ phis.map (·.id)
          · rw [if_pos hm] at h
            refine pass h hu fun _ => ?_
            obtain ⟨v, hv, e⟩ := List.mem_map.mp hm
            exact ⟨v, hv, e⟩
          · rw [if_neg hm] at h
            obtain ⟨k1, k2, k3, k4⟩ := checkBlockUses_true db rest (phis ++ [use]) phis' h
            refine ⟨?_, fun v hv => k2 v (by simp [hv]), ?_, ?_⟩
            · intro u hu'
              rcases List.mem_cons.mp hu' with rfl | hu'
              · exact hu
              · exact k1 u hu'
            · intro u hu' hl
              rcases List.mem_cons.mp hu' with rfl | hu'
              · exact ⟨u, k2 u (by simp), rfl⟩
              · exact k3 u hu' hl
            · intro v hv
              rcases k4 v hv with h | h
              · rcases List.mem_append.mp h with h | h
                · exact .inl h
                · simp at h; subst h
                  exact .inr ⟨by simp, hp, ub, hb, hr'⟩
              · exact .inr ⟨by simp [h.1], h.2⟩
        · rw [if_neg hp] at h
          cases hd : dominates idom db fuel ub with
          | none => rw [hd] at h; cases h
          | some r =>
            rw [hd] at h
            cases r with
            | false => cases h
            | true =>
              refine pass h ?_ ?_
              · intro ub' hub _ _; rw [hb] at hub; cases hub; exact hd
              · rintro ⟨h, -⟩; exact absurd h hp

theorem checkBlockUses_total (hT : ∀ db, ∀ ub ∈ reachable, dominates idom db fuel ub ≠ none) (db : B) :
    ∀ (us phis : List (Inst B)), ∃ phis' r,
    checkBlockUses idom reachable fuel db us phis = some (phis', r) ∧
    (r = false → ∃ u ∈ us, ¬ UseOk idom reachable fuel db u)
  | [], phis => ⟨phis, true, rfl, by simp⟩
  | use :: rest, phis => by
    unfold checkBlockUses
    have pass : ∀ phis, ∃ phis' r, checkBlockUses idom reachable fuel db rest phis = some (phis', r) ∧
        (r = false → ∃ u ∈ use :: rest, ¬ UseOk idom reachable fuel db u) := by
      intro phis
      obtain ⟨phis', r, h1, h2⟩ := checkBlockUses_total hT db rest phis
      refine ⟨phis', r, h1, fun hr => ?_⟩
      obtain ⟨u, hu, hn⟩ := h2 hr
      exact ⟨u, by simp [hu], hn⟩
    cases hb : use.block with
    | none => exact pass phis
    | some ub =>
      dsimp only
      by_cases hr : ub ∉ reachable
      · rw [if_pos hr]; exact pass phis
      · rw [if_neg hr]
        have hr' : ub ∈ reachable := by simpa using hr
        by_cases hp : use.phi = true
        · rw [if_pos hp]
          by_cases hm : use.id ∈ phis.map (·.id)
          · rw [if_pos hm]; exact pass phis
          · rw [if_neg hm]; exact pass _
        · rw [if_neg hp]
          cases hd : dominates idom db fuel ub with
          | none => exact absurd hd (hT db ub hr')
          | some r =>
            cases r with
            | true => exact pass phis
            | false =>
              refine ⟨phis, false, rfl, fun _ => ⟨use, by simp, fun h => ?_⟩⟩
              have := h ub hb hr' (by simpa using hp)
              rw [hd] at this; cases this

theorem checkDefs_true : ∀ (l phis phis' : List (Inst B)),
    checkDefs m idom reachable fuel l phis = some (phis', true) →
    (∀ d ∈ l, DefOk m idom reachable fuel d) ∧ (∀ v ∈ phis, v ∈ phis') ∧
    (∀ d ∈ l, d.id ≠ 0 → d.func ≠ none → d.block ≠ none → Collected reachable (m.usesOf d.id) phis') ∧
    (∀ v ∈ phis', v ∈ phis ∨ (v ∈ m.insts ∧ LivePhi reachable v))
  | [], phis, phis', h => by
    cases h
    exact ⟨by simp, fun v hv => hv, by simp, fun v hv => .inl hv⟩
  | inst :: rest, phis, phis', h => by
    unfold checkDefs at h
    have pass : ∀ (_ : checkDefs m idom reachable fuel rest phis = some (phis', true))
        (_ : DefOk m idom reachable fuel inst)
        (_ : inst.id ≠ 0 → inst.func ≠ none → inst.block ≠ none → False),
        (∀ d ∈ inst :: rest, DefOk m idom reachable fuel d) ∧ (∀ v ∈ phis, v ∈ phis') ∧
        (∀ d ∈ inst :: rest, d.id ≠ 0 → d.func ≠ none → d.block ≠ none →
          Collected reachable (m.usesOf d.id) phis') ∧
        (∀ v ∈ phis', v ∈ phis ∨ (v ∈ m.insts ∧ LivePhi reachable v)) := by
      intro h hd hno
      obtain ⟨k1, k2, k3, k4⟩ := checkDefs_true rest phis phis' h
      refine ⟨?_, k2, ?_, k4⟩
      · intro d hd'
        rcases List.mem_cons.mp hd' with rfl | hd'
        · exact hd
        · exact k1 d hd'
      · intro d hd' a b c
        rcases List.mem_cons.mp hd' with rfl | hd'
        · exact (hno a b c).elim
        · exact k3 d hd' a b c
    by_cases h0 : inst.id = 0
    · rw [if_pos h0] at h
      exact pass h (fun hh => absurd h0 hh) (fun hh => absurd h0 hh)
    · rw [if_neg h0] at h
      cases hf : inst.func with
      | none =>
        rw [hf] at h
        exact pass h (fun _ fn hfn => by rw [hf] at hfn; cases hfn) (fun _ hh => absurd hf hh)
      | some fn =>
        rw [hf] at h
        dsimp only at h
        cases hb : inst.block with
        | none =>
          rw [hb] at h
          dsimp only at h
          by_cases ha : (m.usesOf inst.id).any (fun u => decide (u.func ≠ none ∧ u.func ≠ some fn)) = true
          · rw [if_pos ha] at h; cases h
          · rw [if_neg ha] at h
            refine pass h ?_ (fun _ _ hh => absurd hb hh)
            intro _ fn' hfn' u hu
            rw [hf] at hfn'
            cases hfn'
            refine ⟨fun db hdb => (by rw [hb] at hdb; cases hdb), fun _ g hg => ?_⟩
            refine Classical.byContradiction fun hne => ha ?_
            rw [List.any_eq_true]
            exact ⟨u, hu, by simp [hg, hne]⟩
        | some db =>
          rw [hb] at h
          dsimp only at h
          cases hc : checkBlockUses idom reachable fuel db (m.usesOf inst.id) phis with
          | none => rw [hc] at h; cases h
          | some q =>
            obtain ⟨phis1, r⟩ := q
            rw [hc] at h
            cases r with
            | false => cases h
            | true =>
              dsimp only at h
              obtain ⟨j1, j2, j3, j4⟩ := checkBlockUses_true idom reachable fuel db _ _ _ hc
              obtain ⟨k1, k2, k3, k4⟩ := checkDefs_true rest phis1 phis' h
              refine ⟨?_, fun v hv => k2 v (j2 v hv), ?_, ?_⟩
              · intro d hd'
                rcases List.mem_cons.mp hd' with rfl | hd'
                · intro _ fn' _ u hu
                  refine ⟨fun db' hdb => ?_, fun hn => by rw [hb] at hn; cases hn⟩
                  rw [hb] at hdb; cases hdb
                  exact j1 u hu
                · exact k1 d hd'
              · intro d hd' a b c
                rcases List.mem_cons.mp hd' with rfl | hd'
                · intro u hu hl
                  obtain ⟨v, hv, e⟩ := j3 u hu hl
                  exact ⟨v, k2 v hv, e⟩
                · exact k3 d hd' a b c
              · intro v hv
                rcases k4 v hv with h | h
                · rcases j4 v h with h | h
                  · exact .inl h
                  · exact .inr ⟨(mem_usesOf.mp h.1).1, h.2⟩
                · exact .inr h

theorem checkDefs_total (hT : ∀ db, ∀ ub ∈ reachable, dominates idom db fuel ub ≠ none) :
    ∀ (l phis : List (Inst B)), ∃ phis' r,
    checkDefs m idom reachable fuel l phis = some (phis', r) ∧
    (r = false → ∃ d ∈ l, ¬ DefOk m idom reachable fuel d)
  | [], phis => ⟨phis, true, rfl, by simp⟩
  | inst :: rest, phis => by
    unfold checkDefs
    have pass : ∀ phis, ∃ phis' r, checkDefs m idom reachable fuel rest phis = some (phis', r) ∧
        (r = false → ∃ d ∈ inst :: rest, ¬ DefOk m idom reachable fuel d) := by
      intro phis
      obtain ⟨phis', r, h1, h2⟩ := checkDefs_total hT rest phis
      refine ⟨phis', r, h1, fun hr => ?_⟩
      obtain ⟨u, hu, hn⟩ := h2 hr
      exact ⟨u, by simp [hu], hn⟩
    by_cases h0 : inst.id = 0
    · rw [if_pos h0]; exact pass phis
    · rw [if_neg h0]
      cases hf : inst.func with
      | none => exact pass phis
      | some fn =>
        dsimp only
        cases hb : inst.block with
        | none =>
          dsimp only
          by_cases ha : (m.usesOf inst.id).any (fun u => decide (u.func ≠ none ∧ u.func ≠ some fn)) = true
          · rw [if_pos ha]
            refine ⟨phis, false, rfl, fun _ => ⟨inst, by simp, fun hd => ?_⟩⟩
            rw [List.any_eq_true] at ha
            obtain ⟨u, hu, hh⟩ := ha
            simp only [decide_eq_true_eq] at hh
            obtain ⟨h1, h2⟩ := hh
            cases hg : u.func with
            | none => exact h1 hg
            | some g =>
              have := (hd h0 fn hf u hu).2 hb g hg
              exact h2 (by rw [hg, this])
          · rw [if_neg ha]; exact pass phis
        | some db =>
          dsimp only
          obtain ⟨phis1, r, h1, h2⟩ := checkBlockUses_total idom reachable fuel hT db (m.usesOf inst.id) phis
          rw [h1]
          cases r with
          | true => exact pass phis1
          | false =>
            refine ⟨phis1, false, rfl, fun _ => ⟨inst, by simp, fun hd => ?_⟩⟩
            obtain ⟨u, hu, hn⟩ := h2 rfl
            exact hn ((hd h0 fn hf u hu).1 db hb)

/-- An incoming pair of a phi passes. -/
def PairOk (w : Nat) (parent : B) : Prop :=
  ∀ d db, m.findDef w = some d → d.block = some db → parent ∈ reachable →
    dominates idom db fuel parent = some true

theorem checkIncoming_true : ∀ (l : List (Nat × B)), checkIncoming m idom reachable fuel l = some true →
    ∀ w p, (w, p) ∈ l → PairOk m idom reachable fuel w p
  | [], _ => by simp
  | (w0, p0) :: rest, h => by
    unfold checkIncoming at h
    cases hf : m.findDef w0 with
    | none => rw [hf] at h; cases h
    | some d =>
      rw [hf] at h
      dsimp only at h
      have pass : ∀ (_ : checkIncoming m idom reachable fuel rest = some true)
          (_ : PairOk m idom reachable fuel w0 p0),
          ∀ w p, (w, p) ∈ (w0, p0) :: rest → PairOk m idom reachable fuel w p := by
        intro h h0 w p hm
        rcases List.mem_cons.mp hm with e | hm
        · cases e; exact h0
        · exact checkIncoming_true rest h w p hm
      cases hb : d.block with
      | none =>
        rw [hb] at h
        refine pass h fun d' db hd' hdb => ?_
        rw [hf] at hd'; cases hd'; rw [hb] at hdb; cases hdb
      | some db =>
        rw [hb] at h
        dsimp only at h
        by_cases hr : p0 ∉ reachable
        · rw [if_pos hr] at h
          exact pass h fun d' db hd' hdb hr' => absurd hr' hr
        · rw [if_neg hr] at h
          cases hd : dominates idom db fuel p0 with
          | none => rw [hd] at h; cases h
          | some r =>
            rw [hd] at h
            cases r with
            | false => cases h
            | true =>
              refine pass h fun d' db' hd' hdb _ => ?_
              rw [hf] at hd'; cases hd'; rw [hb] at hdb; cases hdb; exact hd

theorem checkIncoming_total (hT : ∀ db, ∀ ub ∈ reachable, dominates idom db fuel ub ≠ none) :
    ∀ (l : List (Nat × B)), (∀ w p, (w, p) ∈ l → m.findDef w ≠ none) →
    ∃ r, checkIncoming m idom reachable fuel l = some r ∧
      (r = false → ∃ w p, (w, p) ∈ l ∧ ¬ PairOk m idom reachable fuel w p)
  | [], _ => ⟨true, rfl, by simp⟩
  | (w0, p0) :: rest, hdef => by
    unfold checkIncoming
    have pass : ∃ r, checkIncoming m idom reachable fuel rest = some r ∧
        (r = false → ∃ w p, (w, p) ∈ (w0, p0) :: rest ∧ ¬ PairOk m idom reachable fuel w p) := by
      obtain ⟨r, h1, h2⟩ := checkIncoming_total hT rest (fun w p hm => hdef w p (by simp [hm]))
      refine ⟨r, h1, fun hr => ?_⟩
      obtain ⟨w, p, hm, hn⟩ := h2 hr
      exact ⟨w, p, by simp [hm], hn⟩
    cases hf : m.findDef w0 with
    | none => exact absurd hf (hdef w0 p0 (by simp))
    | some d =>
      dsimp only
      cases hb : d.block with
      | none => exact pass
      | some db =>
        dsimp only
        by_cases hr : p0 ∉ reachable
        · rw [if_pos hr]; exact pass
        · rw [if_neg hr]
          have hr' : p0 ∈ reachable := by simpa using hr
          cases hd : dominates idom db fuel p0 with
          | none => exact absurd hd (hT db p0 hr')
          | some r =>
            cases r with
            | true => exact pass
            | false =>
              refine ⟨false, rfl, fun _ => ⟨w0, p0, by simp, fun h => ?_⟩⟩
              have := h d db hf hb hr'
              rw [hd] at this; cases this

/-- A phi passes. -/
def PhiOk (u : Inst B) : Prop :=
  LivePhi reachable u → ∀ w p, (w, p) ∈ u.incoming → PairOk m idom reachable fuel w p

theorem checkPhis_true : ∀ (l : List (Inst B)), checkPhis m idom reachable fuel l = some true →
    ∀ u ∈ l, PhiOk m idom reachable fuel u
  | [], _ => by simp
  | phi :: rest, h => by
    unfold checkPhis at h
    cases hb : phi.block with
    | none => rw [hb] at h; cases h
    | some pb =>
      rw [hb] at h
      dsimp only at h
      have pass : ∀ (_ : checkPhis m idom reachable fuel rest = some true)
          (_ : PhiOk m idom reachable fuel phi), ∀ u ∈ phi :: rest, PhiOk m idom reachable fuel u := by
        intro h h0 u hu
        rcases List.mem_cons.mp hu with rfl | hu
        · exact h0
        · exact checkPhis_true rest h u hu
      by_cases hr : pb ∉ reachable
      · rw [if_pos hr] at h
        refine pass h ?_
        rintro ⟨-, ub, hub, hm⟩
        rw [hb] at hub; cases hub; exact absurd hm hr
      · rw [if_neg hr] at h
        cases hc : checkIncoming m idom reachable fuel phi.incoming with
        | none => rw [hc] at h; cases h
        | some r =>
          rw [hc] at h
          cases r with
          | false => cases h
          | true => exact pass h fun _ => checkIncoming_true m idom reachable fuel _ hc

theorem checkPhis_total (hT : ∀ db, ∀ ub ∈ reachable, dominates idom db fuel ub ≠ none) :
    ∀ (l : List (Inst B)), (∀ u ∈ l, LivePhi reachable u ∧ ∀ w p, (w, p) ∈ u.incoming → m.findDef w ≠ none) →
    ∃ r, checkPhis m idom reachable fuel l = some r ∧
      (r = false → ∃ u ∈ l, ¬ PhiOk m idom reachable fuel u)
  | [], _ => ⟨true, rfl, by simp⟩
  | phi :: rest, hl => by
    unfold checkPhis
    have pass : ∃ r, checkPhis m idom reachable fuel rest = some r ∧
        (r = false → ∃ u ∈ phi :: rest, ¬ PhiOk m idom reachable fuel u) := by
      obtain ⟨r, h1, h2⟩ := checkPhis_total hT rest (fun u hu => hl u (by simp [hu]))
      refine ⟨r, h1, fun hr => ?_⟩
      obtain ⟨u, hu, hn⟩ := h2 hr
      exact ⟨u, by simp [hu], hn⟩
    obtain ⟨⟨hp, pb, hb, hr⟩, hdef⟩ := hl phi (by simp)
    rw [hb]
    dsimp only
    rw [if_neg (by simpa using hr)]
    obtain ⟨r, h1, h2⟩ := checkIncoming_total m idom reachable fuel hT phi.incoming hdef
    rw [h1]
    cases r with
    | true => exact pass
    | false =>
      refine ⟨false, rfl, fun _ => ⟨phi, by simp, fun h => ?_⟩⟩
      obtain ⟨w, p, hm, hn⟩ := h2 rfl
      exact hn (h ⟨hp, pb, hb, hr⟩ w p hm)

end

end Verif.DomCheck
