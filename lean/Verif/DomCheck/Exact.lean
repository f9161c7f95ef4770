import Verif.DomCheck.Lemmas
import Verif.DomTree.Core
set_option linter.unusedSimpArgs false
set_option linter.unusedVariables false
set_option linter.unusedSectionVars false
namespace Verif.DomCheck
open Verif.Cfa Verif.Cfa.Spec Spec Verif.DomTree
variable {B : Type} [DecidableEq B] [Blocks B]

theorem roots_detail {succ pred : B → List B} (hinv : ∀ u v, u ∈ pred v ↔ v ∈ succ u)
    {bs : List B} (hnd : bs.Nodup) {roots} (h : traversalRoots bs succ pred = some roots) :
    (∀ b ∈ roots, pred b = [] ∨ ∀ x ∈ bs, pred x = [] → ¬ Reach (RE succ) x b) ∧
    (∀ first, bs.head? = some first → ∀ b ∈ roots, Reach (RE succ) first b → b = first) := by
  obtain ⟨v, r, k1, k2, k3⟩ := rootsNoPred_spec hinv bs [] [] ⟨by simp, by simp⟩ hnd (by simp)
  obtain ⟨v', r', j1, j2, j3, j4, j5, t, rfl⟩ := rootsStranded_spec bs v r k2
  have hroots : roots = r ++ t := by
    simp only [traversalRoots, k1, j1, Option.some.injEq] at h
    exact h.symm
  subst hroots
  obtain ⟨p1, p2, p3⟩ := List.pairwise_append.mp j2.first
  constructor
  · intro b hb
    rcases List.mem_append.mp hb with hb | hb
    · rcases (k3 b).mp hb with h | h
      · cases h
      · exact .inl h.2
    · refine .inr fun x hx hp => p3 x ((k3 x).mpr (.inr ⟨hx, hp⟩)) b hb
  · intro first hf b hb hr
    rcases List.mem_append.mp hb with hb | hb
    · rcases (k3 b).mp hb with h | h
      · cases h
      · exact (reach_nopred hinv h.2 hr).symm
    · cases bs with
      | nil => cases hf
      | cons a bs =>
        have : a = first := by simpa using hf
        subst this
        by_cases ha : a ∈ v
        · obtain ⟨x, hx, hxa⟩ := (k2.vis a).mp ha
          exact absurd (Reach.trans hxa hr) (p3 x hx b hb)
        · unfold rootsStranded at j1
          rw [if_neg ha] at j1
          obtain ⟨v2, r2, l1, -, -, -, -, t2, rfl⟩ := rootsStranded_spec bs _ _ (k2.push ha)
          rw [l1] at j1
          have e : r ++ [a] ++ t2 = r ++ t := (Prod.mk.inj j1).2
          have e2 : t = a :: t2 := by
            rw [List.append_assoc] at e
            exact (List.append_cancel_left e).symm
          rw [e2] at hb p2
          rcases List.mem_cons.mp hb with rfl | hb
          · rfl
          · exact absurd hr ((List.pairwise_cons.mp p2).1 b hb)

theorem reach_rev {succ pred : B → List B} (hinv : ∀ u v, u ∈ pred v ↔ v ∈ succ u) {a b : B}
    (h : Reach (RE succ) a b) : Reach (RE pred) b a := by
  induction h with
  | refl => exact .refl _
  | tail _ he ih => exact Reach.head ((hinv _ _).mpr he) ih

theorem func_exact {f : Func B} (ok : FuncOk f) (me : MergesExit f) {first : B}
    (hh : f.ordered.head? = some first) : ∃ F, ∀ fuel, F ≤ fuel → ∃ e,
      f.idomEdges fuel = some e ∧
      ∀ b, Reach (Flow f) first b →
        (∀ x, (b, x) ∈ e ↔ (b ≠ first ∧ IsIdom (Flow f) first x b)) ∧ (b ≠ first → ∃ x, (b, x) ∈ e) := by
  obtain ⟨src, snk, haug, hsrc, hsnk, s1, t1⟩ := augmented_some ok
  obtain ⟨-, s3⟩ := roots_detail (spred_iff ok) ok.nodup s1
  obtain ⟨t3, -⟩ := roots_detail (fun u v => (spred_iff ok v u).symm)
    ((List.reverse_perm f.ordered).nodup_iff.mpr ok.nodup) t1
  replace s3 := s3 first hh
  have hmem := head_mem hh
  -- sinks have no structural successor beyond the plain ones
  have hsink : ∀ u ∈ snk, ∀ v, v ∈ f.ssucc u ↔ v ∈ f.succ u := by
    intro u hu v
    refine ⟨fun hv => ?_, succ_ssucc⟩
    refine Classical.byContradiction fun hn => ?_
    have hm : v ∈ f.merges u := (List.mem_append.mp hv).resolve_right hn
    obtain ⟨x, hx, hex⟩ := me u ⟨v, hm, hn⟩
    rcases t3 u hu with h | h
    · rw [h] at hv; cases hv
    · refine h x ?_ hex (reach_rev (spred_iff ok) hx)
      rw [List.mem_reverse]
      have : ∀ {c}, Reach (RE f.ssucc) u c → c ∈ f.ordered := by
        intro c hc
        cases hc with
        | refl => exact hsnk u hu
        | tail _ he => exact (ok.closed _ _ he).2
      exact this hx
  let asucc : B → List B := fun b => if b ∈ snk then f.pseudoExit :: f.ssucc b
    else if b = f.pseudoEntry then src else f.succ b
  let apred : B → List B := fun b => if b = f.pseudoExit then snk
    else if b ∈ src then f.pseudoEntry :: f.spred b else f.pred b
  have hflow : ∀ u v, Flow f u v → u ∈ f.ordered ∧ v ∈ f.ordered :=
    fun u v h => ok.closed u v (succ_ssucc h)
  -- edges seen by the search
  have ha : ∀ u v, u ∈ f.ordered → (v ∈ asucc u ↔ Flow f u v ∨ (v = f.pseudoExit ∧ u ∈ snk)) := by
    intro u v hu
    show v ∈ (if _ then _ else _) ↔ _
    by_cases hs : u ∈ snk
    · rw [if_pos hs, List.mem_cons, hsink u hs]
      simp only [hs, and_true, Flow]
      exact Or.comm
    · rw [if_neg hs, if_neg (by rintro rfl; exact ok.entry hu)]
      simp [hs, Flow]
  have hapx : ∀ v, v ∉ asucc f.pseudoExit := by
    intro v hv
    have hv : v ∈ (if f.pseudoExit ∈ snk then _ else _) := hv
    rw [if_neg (fun h => ok.exit (hsnk _ h)), if_neg (Ne.symm ok.distinct)] at hv
    exact ok.exit (hflow _ _ hv).1
  -- edges seen by the dominator computation
  have hp1 : ∀ u v, Flow f u v → u ∈ apred v := by
    intro u v huv
    have hv := (hflow u v huv).2
    show u ∈ (if _ then _ else _)
    rw [if_neg (by rintro rfl; exact ok.exit hv)]
    split
    · exact List.mem_cons_of_mem _ ((spred_iff ok u v).mpr (succ_ssucc huv))
    · exact (pred_iff ok u v).mpr huv
  have hp2 : ∀ u v, u ∈ f.ordered → u ∈ apred v → Reach (RE f.ssucc) first u →
      (v = f.pseudoExit ∧ u ∈ snk) ∨ v = first ∨ Flow f u v := by
    intro u v hu huv hr
    have huv : u ∈ (if v = f.pseudoExit then _ else _) := huv
    by_cases hx : v = f.pseudoExit
    · rw [if_pos hx] at huv; exact .inl ⟨hx, huv⟩
    · rw [if_neg hx] at huv
      by_cases hs : v ∈ src
      · rw [if_pos hs] at huv
        rcases List.mem_cons.mp huv with rfl | huv
        · exact absurd hu ok.entry
        · exact .inr (.inl (s3 v hs (.tail hr ((spred_iff ok u v).mp huv))))
      · rw [if_neg hs] at huv
        exact .inr (.inr ((pred_iff ok u v).mp huv))
  have hppx : ∀ v, f.pseudoExit ∉ apred v := by
    intro v hv
    have hv : _ ∈ (if v = f.pseudoExit then _ else _) := hv
    split at hv
    · exact ok.exit (hsnk _ hv)
    · split at hv
      · rcases List.mem_cons.mp hv with h | hv
        · exact ok.distinct h.symm
        · exact ok.exit (ok.closed _ _ ((spred_iff ok _ _).mp hv)).1
      · exact ok.exit (hflow _ _ ((pred_iff ok _ _).mp hv)).1
  have hfs : ∀ {c}, Reach (Flow f) first c → Reach (RE f.ssucc) first c := by
    intro c hc
    induction hc with
    | refl => exact .refl _
    | tail _ he ih => exact .tail ih (succ_ssucc he)
  have hro : ∀ {c}, Reach (Flow f) first c → c ∈ f.ordered := fun hc => reach_ordered ok hmem hc
  -- the blocks found by the search
  have hpo : ∀ x, Reach (fun u v => v ∈ asucc u) first x ↔
      Reach (Flow f) first x ∨ (x = f.pseudoExit ∧ ∃ u ∈ snk, Reach (Flow f) first u) := by
    intro x
    constructor
    · intro h
      induction h with
      | refl => exact .inl (.refl _)
      | tail _ he ih =>
        rcases ih with ih | ⟨rfl, -⟩
        · rcases (ha _ _ (hro ih)).mp he with h | ⟨h1, h2⟩
          · exact .inl (.tail ih h)
          · exact .inr ⟨h1, _, h2, ih⟩
        · exact absurd he (hapx _)
    · have one : ∀ {x}, Reach (Flow f) first x → Reach (fun u v => v ∈ asucc u) first x := by
        intro x h
        induction h with
        | refl => exact .refl _
        | tail h he ih => exact .tail ih ((ha _ _ (hro h)).mpr (.inl he))
      rintro (h | ⟨rfl, u, hu, h⟩)
      · exact one h
      · exact .tail (one h) ((ha _ _ (hro h)).mpr (.inr ⟨rfl, hu⟩))
  have hpo2 : ∀ x, Reach (fun u v => u ∈ apred v) first x ↔
      Reach (Flow f) first x ∨ (x = f.pseudoExit ∧ ∃ u ∈ snk, Reach (Flow f) first u) := by
    intro x
    constructor
    · intro h
      induction h with
      | refl => exact .inl (.refl _)
      | tail _ he ih =>
        rcases ih with ih | ⟨rfl, -⟩
        · rcases hp2 _ _ (hro ih) he (hfs ih) with ⟨h1, h2⟩ | rfl | h
          · exact .inr ⟨h1, _, h2, ih⟩
          · exact .inl (.refl _)
          · exact .inl (.tail ih h)
        · exact absurd he (hppx _)
    · have one : ∀ {x}, Reach (Flow f) first x → Reach (fun u v => u ∈ apred v) first x := by
        intro x h
        induction h with
        | refl => exact .refl _
        | tail h he ih => exact .tail ih (hp1 _ _ he)
      rintro (h | ⟨rfl, u, hu, h⟩)
      · exact one h
      · refine .tail (one h) ?_
        show u ∈ (if _ then _ else _)
        rw [if_pos rfl]; exact hu
  have fact := dfsFacts (depthFirst_isDfs asucc (fun _ => false) first)
  obtain ⟨F, hF⟩ := calculateDominators_exact (postOf (depthFirst asucc (fun _ => false) first)) apred first
    (fact.perm.nodup_iff.mpr fact.preNodup) fact.last
    (fun x => by rw [post_mem, hpo, hpo2])
    (by
      intro x hx hne
      obtain ⟨y, h1, h2⟩ := fact.parent x hx hne
      refine ⟨y, ?_, h2⟩
      have hy : y ∈ postOf (depthFirst asucc (fun _ => false) first) := by
        obtain ⟨l1, l2, l3, e⟩ := h2; rw [e]; simp
      rw [post_mem, hpo] at hy
      rcases hy with hy | ⟨rfl, -⟩
      · rcases (ha _ _ (hro hy)).mp h1.2 with h | ⟨rfl, h⟩
        · exact hp1 _ _ h
        · show y ∈ (if _ then _ else _)
          rw [if_pos rfl]; exact h
      · exact absurd h1.2 (hapx _))
  -- the two graphs have the same dominators
  have cut : ∀ {x p}, Path (fun u v => u ∈ apred v) first x p → x ≠ f.pseudoExit →
      ∃ q, Path (Flow f) first x q ∧ ∀ y ∈ q, y ∈ p := by
    intro x p hp
    induction hp with
    | single => exact fun _ => ⟨_, .single _, fun _ h => h⟩
    | @snoc b c p hp he ih =>
      intro hc
      have hb : b ≠ f.pseudoExit := by rintro rfl; exact hppx _ he
      obtain ⟨q, h1, h2⟩ := ih hb
      have hr := path_reach_end h1
      rcases hp2 _ _ (hro hr) he (hfs hr) with ⟨h, -⟩ | rfl | h
      · exact absurd h hc
      · exact ⟨_, .single _, fun y hy => by simp at hy; simp [hy]⟩
      · refine ⟨_, .snoc h1 h, fun y hy => ?_⟩
        rcases List.mem_append.mp hy with hy | hy
        · exact List.mem_append_left _ (h2 y hy)
        · exact List.mem_append_right _ hy
  have lift : ∀ {x p}, Path (Flow f) first x p → Path (fun u v => u ∈ apred v) first x p := by
    intro x p hp
    induction hp with
    | single => exact .single _
    | snoc _ he ih => exact .snoc ih (hp1 _ _ he)
  have domEq : ∀ d x, x ≠ f.pseudoExit →
      (Dominates (fun u v => u ∈ apred v) first d x ↔ Dominates (Flow f) first d x) := by
    intro d x hx
    constructor
    · intro h p hp; exact h p (lift hp)
    · intro h p hp
      obtain ⟨q, h1, h2⟩ := cut hp hx
      exact h2 _ (h q h1)
  have idomEq : ∀ d x, Reach (Flow f) first x →
      (IsIdom (fun u v => u ∈ apred v) first d x ↔ IsIdom (Flow f) first d x) := by
    intro d x hr
    have hx : x ≠ f.pseudoExit := by rintro rfl; exact ok.exit (hro hr)
    unfold IsIdom
    constructor
    · rintro ⟨h1, h2, h3⟩
      have h2' := (domEq d x hx).mp h2
      have hd : d ≠ f.pseudoExit := by rintro rfl; exact ok.exit (hro (dom_reach hr h2'))
      exact ⟨h1, h2', fun y hy hyd => (domEq y d hd).mp (h3 y hy ((domEq y x hx).mpr hyd))⟩
    · rintro ⟨h1, h2, h3⟩
      have hd : d ≠ f.pseudoExit := by rintro rfl; exact ok.exit (hro (dom_reach hr h2))
      exact ⟨h1, (domEq d x hx).mpr h2, fun y hy hyd =>
        (domEq y d hd).mpr (h3 y hy ((domEq y x hx).mp hyd))⟩
  refine ⟨F, fun fuel hfuel => ?_⟩
  obtain ⟨out, h1, h2, h3⟩ := hF fuel hfuel
  refine ⟨out.filter (fun e : B × B => decide (e.1 ≠ e.2)), ?_, fun b hb => ⟨fun x => ?_, fun hne => ?_⟩⟩
  · unfold Func.idomEdges
    rw [hh, haug]
    dsimp only
    show (match calculateDominators fuel (postOf (depthFirst asucc (fun _ => false) first)) apred with
      | none => none
      | some edges => some (edges.filter fun e : B × B => decide (e.1 ≠ e.2))) = _
    rw [h1]
  · have hbp : b ∈ postOf (depthFirst asucc (fun _ => false) first) := by
      rw [post_mem, hpo]; exact .inl hb
    rw [List.mem_filter, h3, idomEq x b hb]
    simp only [hbp, true_and, decide_eq_true_eq]
    constructor
    · rintro ⟨⟨h1, h2⟩ | h, hne⟩
      · exact absurd (h1.trans h2.symm) hne
      · exact h
    · intro h
      exact ⟨.inr h, Ne.symm h.2.1⟩
  · have hbp : b ∈ postOf (depthFirst asucc (fun _ => false) first) := by
      rw [post_mem, hpo]; exact .inl hb
    rw [← h2] at hbp
    obtain ⟨⟨b', x⟩, hx, e⟩ := List.mem_map.mp hbp
    cases e
    refine ⟨x, List.mem_filter.mpr ⟨hx, ?_⟩⟩
    rcases ((h3 _ _).mp hx).2 with h | h
    · exact absurd h.1 hne
    · simpa using Ne.symm h.2.1

/-- What climbing the immediate-dominator links needs to know about them. -/
def LinksOk (f : Func B) (first : B) (es : List (B × B)) : Prop :=
  ∀ b, Reach (Flow f) first b →
    (∀ x, es.lookup b = some x → IsIdom (Flow f) first x b ∧ b ≠ first) ∧
    (b ≠ first → ∃ x, es.lookup b = some x)

theorem dominates_exact {f : Func B} {first : B} {es} (hl : LinksOk f first es) {d : B} :
    ∀ {k b p}, Path (Flow f) first b p → p.length ≤ k →
    ∃ r, dominates (fun b => es.lookup b) d k b = some r ∧ (r = true ↔ Dominates (Flow f) first d b)
  | 0, b, p, hp, hk => by
    have := path_last hp
    cases p with
    | nil => cases this
    | cons => simp at hk
  | k + 1, b, p, hp, hk => by
    unfold dominates
    by_cases hd : d = b
    · rw [if_pos hd]
      exact ⟨true, rfl, by simp [hd, dom_self]⟩
    · rw [if_neg hd]
      have hb := path_reach_end hp
      obtain ⟨l1, l2⟩ := hl b hb
      cases hx : es.lookup b with
      | none =>
        refine ⟨false, rfl, ?_⟩
        by_cases hf : b = first
        · subst hf
          simp only [Bool.false_eq_true, false_iff]
          intro h
          have := h _ (.single _)
          simp at this
          exact hd this
        · obtain ⟨x, h⟩ := l2 hf
          rw [hx] at h; cases h
      | some x =>
        obtain ⟨hi, -⟩ := l1 x hx
        dsimp only
        rw [if_neg hi.1]
        obtain ⟨q, hq, hlen⟩ := path_prefix hp x (hi.2.1 p hp) hi.1
        obtain ⟨r, h1, h2⟩ := dominates_exact hl (d := d) hq (by omega : q.length ≤ k)
        refine ⟨r, h1, h2.trans ⟨fun h => dom_trans h hi.2.1, fun h => hi.2.2 d hd h⟩⟩

theorem lookup_some {l : List (B × B)} {b x : B} (h : (b, x) ∈ l) : ∃ y, l.lookup b = some y := by
  induction l with
  | nil => cases h
  | cons a l ih =>
    obtain ⟨c, y⟩ := a
    rw [List.lookup_cons]
    by_cases hc : b = c
    · subst hc; exact ⟨y, by simp⟩
    · have hcf : (b == c) = false := by simpa using hc
      rw [hcf]
      refine ih ?_
      rcases List.mem_cons.mp h with h | h
      · cases h; exact absurd rfl hc
      · exact h

/-- Enough fuel for all functions. -/
theorem funcs_exact : ∀ (fs : List (Func B)), (∀ f ∈ fs, FuncOk f) → (∀ f ∈ fs, MergesExit f) →
    ∃ F, ∀ fuel, F ≤ fuel → (∃ es, idomEdges fuel fs = some es) ∧
      ∀ f ∈ fs, ∀ first, f.ordered.head? = some first → ∃ e, f.idomEdges fuel = some e ∧
        ∀ b, Reach (Flow f) first b →
          (∀ x, (b, x) ∈ e ↔ (b ≠ first ∧ IsIdom (Flow f) first x b)) ∧ (b ≠ first → ∃ x, (b, x) ∈ e)
  | [], _, _ => ⟨0, fun _ _ => ⟨⟨[], rfl⟩, by simp⟩⟩
  | f :: fs, hok, hme => by
    obtain ⟨F, hF⟩ := funcs_exact fs (fun g hg => hok g (by simp [hg])) (fun g hg => hme g (by simp [hg]))
    cases hh : f.ordered.head? with
    | none =>
      refine ⟨F, fun fuel hfuel => ?_⟩
      obtain ⟨⟨es, h1⟩, h2⟩ := hF fuel hfuel
      have h3 : f.idomEdges fuel = some [] := by unfold Func.idomEdges; rw [hh]
      refine ⟨⟨es, by simp [idomEdges, h3, h1]⟩, fun g hg first hfirst => ?_⟩
      rcases List.mem_cons.mp hg with rfl | hg
      · rw [hh] at hfirst; cases hfirst
      · exact h2 g hg first hfirst
    | some first =>
      obtain ⟨G, hG⟩ := func_exact (hok f (by simp)) (hme f (by simp)) hh
      refine ⟨max F G, fun fuel hfuel => ?_⟩
      obtain ⟨⟨es, h1⟩, h2⟩ := hF fuel (by omega)
      obtain ⟨e, h3, h4⟩ := hG fuel (by omega)
      refine ⟨⟨e ++ es, by simp [idomEdges, h3, h1]⟩, fun g hg first' hfirst => ?_⟩
      rcases List.mem_cons.mp hg with rfl | hg
      · rw [hh] at hfirst; cases hfirst
        exact ⟨e, h3, h4⟩
      · exact h2 g hg first' hfirst

/-- A bound on the paths to the reachable blocks of a function. -/
theorem path_bound (f : Func B) (first : B) : ∃ K, ∀ b, Reach (Flow f) first b →
    ∃ p, Path (Flow f) first b p ∧ p.length ≤ K := by
  have : ∀ l : List B, ∃ K, ∀ b ∈ l, Reach (Flow f) first b → ∃ p, Path (Flow f) first b p ∧ p.length ≤ K := by
    intro l
    induction l with
    | nil => exact ⟨0, by simp⟩
    | cons a l ih =>
      obtain ⟨K, hK⟩ := ih
      by_cases ha : Reach (Flow f) first a
      · obtain ⟨p, hp⟩ := reach_path ha
        refine ⟨max K p.length, fun b hb hr => ?_⟩
        rcases List.mem_cons.mp hb with rfl | hb
        · exact ⟨p, hp, by omega⟩
        · obtain ⟨q, h1, h2⟩ := hK b hb hr
          exact ⟨q, h1, by omega⟩
      · refine ⟨K, fun b hb hr => ?_⟩
        rcases List.mem_cons.mp hb with rfl | hb
        · exact absurd hr ha
        · exact hK b hb hr
  obtain ⟨K, hK⟩ := this Blocks.all
  exact ⟨K, fun b hb => hK b (Blocks.complete b) hb⟩

theorem paths_bound (fs : List (Func B)) : ∃ K, ∀ f ∈ fs, ∀ first b, ReachableIn f first b →
    ∃ p, Path (Flow f) first b p ∧ p.length ≤ K := by
  induction fs with
  | nil => exact ⟨0, by simp⟩
  | cons f fs ih =>
    obtain ⟨K, hK⟩ := ih
    cases hh : f.ordered.head? with
    | none =>
      refine ⟨K, fun g hg first b hr => ?_⟩
      rcases List.mem_cons.mp hg with rfl | hg
      · rw [ReachableIn, hh] at hr; cases hr.1
      · exact hK g hg first b hr
    | some first0 =>
      obtain ⟨G, hG⟩ := path_bound f first0
      refine ⟨max K G, fun g hg first b hr => ?_⟩
      rcases List.mem_cons.mp hg with rfl | hg
      · rw [ReachableIn, hh] at hr
        obtain ⟨h1, h2⟩ := hr
        cases h1
        obtain ⟨p, h1, h2⟩ := hG b h2
        exact ⟨p, h1, by omega⟩
      · obtain ⟨p, h1, h2⟩ := hK g hg first b hr
        exact ⟨p, h1, by omega⟩

/-- With enough fuel every query about a reachable block is answered, and rightly. -/
theorem module_exact {m : Module B} (ok : ModuleOk m) (me : ∀ f ∈ m.funcs, MergesExit f) :
    ∃ F, ∀ fuel, F ≤ fuel → ∃ es, idomEdges fuel m.funcs = some es ∧
      ∀ d b, Reachable m b → ∃ r, dominates (fun b => es.lookup b) d fuel b = some r ∧
        (r = true ↔ DominatesReachable m d b) := by
  obtain ⟨F, hF⟩ := funcs_exact m.funcs ok.funcs me
  obtain ⟨K, hK⟩ := paths_bound m.funcs
  refine ⟨max F K, fun fuel hfuel => ?_⟩
  obtain ⟨⟨es, h1⟩, h2⟩ := hF fuel (by omega)
  refine ⟨es, h1, fun d b hb => ?_⟩
  obtain ⟨f, hf, first, hr⟩ := hb
  obtain ⟨e, he, hspec⟩ := h2 f hf first hr.1
  have hord : ∀ {c}, Reach (Flow f) first c → c ∈ members f := by
    intro c hc
    have := reach_ordered (ok.funcs f hf) (head_mem hr.1) hc
    simp [members, this]
  have links : LinksOk f first es := by
    intro c hc
    obtain ⟨k1, k2⟩ := hspec c hc
    constructor
    · intro x hx
      obtain ⟨g, hg, e', h3, h4⟩ := (idomEdges_mem h1).1 c x (lookup_mem hx)
      have hm := (func_sound (ok.funcs g hg) h3).1 c x h4
      have : f = g := same_func ok.disjoint hf hg (hord hc) hm.1
      subst this
      rw [he] at h3; cases h3
      exact ((k1 x).mp h4).symm
    · intro hne
      obtain ⟨x, hx⟩ := k2 hne
      obtain ⟨e', h3, h4⟩ := (idomEdges_mem h1).2 f hf
      rw [he] at h3; cases h3
      exact lookup_some (h4 _ hx)
  obtain ⟨p, hp, hlen⟩ := hK f hf first b hr
  obtain ⟨r, k1, k2⟩ := dominates_exact links (d := d) hp (by omega : p.length ≤ fuel)
  refine ⟨r, k1, k2.trans ⟨fun h => ⟨f, hf, first, hr, h⟩, ?_⟩⟩
  rintro ⟨g, hg, first', hr', h⟩
  have : f = g := by
    refine same_func ok.disjoint hf hg (hord hr.2) (b := b) ?_
    have := reach_ordered (ok.funcs g hg) (head_mem hr'.1) hr'.2
    simp [members, this]
  subst this
  have e : first = first' := Option.some.inj (hr.1.symm.trans hr'.1)
  rw [e]; exact h

end Verif.DomCheck
