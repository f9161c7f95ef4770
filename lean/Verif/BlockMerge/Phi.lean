import Verif.BlockMerge.Spec
import Verif.CodeSink.Runs

/-!
# Lemmas: a phi of a block with one predecessor is replaced by its value (C73)
-/

set_option linter.unusedSimpArgs false
set_option linter.unusedVariables false
set_option linter.unusedSectionVars false

namespace Verif.BlockMerge.Spec
open Verif.IfConv Verif.CodeSink Verif.CodeSink.Spec
open Verif.IfConv.Spec hiding Valid Right

variable {V M : Type} {S : Sem V M} {fn : Fn}

/-- `b` is the only predecessor of `s`. -/
structure Sole (fn : Fn) (b s : Lab) : Prop where
  succ : s ∈ fn.succs b
  only : ∀ p, s ∈ fn.succs p → p = b
  reach : Reachable fn b

/-- And `s` its only successor. -/
structure Only (fn : Fn) (b s : Lab) : Prop extends Sole fn b s where
  term : (fn.block b).term = .br s

theorem Only.succs {b s} (g : Only fn b s) : fn.succs b = [s] := by simp [Fn.succs, g.term, Term.succs]

theorem Sole.pred (hv : Valid S fn) {b s} (g : Sole fn b s) {p} (h : s ∈ fn.succs p) : p = b := g.only p h

theorem Sole.entry (hv : Valid S fn) {b s} (g : Sole fn b s) : s ≠ fn.entry := by
  rintro rfl
  exact hv.entry_preds b g.succ

theorem Sole.dom (hv : Valid S fn) {b s} (g : Sole fn b s) : Dominates fn b s := by
  intro l hl
  generalize e : s :: l = L at hl
  cases hl with
  | entry => simp at e; exact absurd e.1 (g.entry hv)
  | next hp hs =>
    simp at e
    obtain ⟨rfl, rfl⟩ := e
    rw [g.pred hv hs]; simp

theorem Sole.reach_s {b s} (g : Sole fn b s) : Reachable fn s := by
  obtain ⟨l, hl⟩ := g.reach
  exact ⟨_, hl.next g.succ⟩

theorem Sole.ne (hv : Valid S fn) {b s} (g : Sole fn b s) : b ≠ s := by
  rintro rfl
  obtain ⟨l, hl⟩ := g.reach
  obtain ⟨l', hp, hn⟩ := hl.first b (by simp)
  generalize e : b :: l' = L at hp
  cases hp with
  | entry => simp at e; exact absurd e.1 (g.entry hv)
  | next hp hs =>
    simp at e
    obtain ⟨rfl, rfl⟩ := e
    exact hn (by rw [g.pred hv hs]; simp)

theorem Sole.not_dom (hv : Valid S fn) {b s} (g : Sole fn b s) : ¬ Dominates fn s b := fun h =>
  g.ne hv ((g.dom hv).antisymm h g.reach_s)

theorem Sole.listed_s (hv : Valid S fn) {b s} (g : Sole fn b s) : s ∈ fn.labels := hv.targets b s g.succ

theorem Sole.listed_b (hv : Valid S fn) {b s} (g : Sole fn b s) : b ∈ fn.labels :=
  hv.labels b (fun e => by have := g.succ; rw [e] at this; cases this)

/-- A phi of `s`, and the others. -/
structure First (fn : Fn) (b s : Lab) (d a : Id) (t : Bool) (rest : List Phi) : Prop extends Sole fn b s where
  phis : ∃ u v, (fn.block s).phis = u ++ ⟨d, t, [(a, b)]⟩ :: v ∧ rest = u ++ v

theorem args_of (hv : Valid S fn) {b s} (g : Sole fn b s) {φ} (h : φ ∈ (fn.block s).phis) :
    ∃ a, φ.args = [(a, b)] := by
  obtain ⟨h1, h2⟩ := hv.phi_preds s φ h
  match ha : φ.args with
  | [] => have := (h2 b).2 g.succ; rw [ha] at this; cases this
  | [(a, q)] =>
    have := g.only q ((h2 q).1 (by rw [ha]; simp))
    exact ⟨a, by rw [this]⟩
  | (a, q) :: (a', q') :: r =>
    have e1 := g.only q ((h2 q).1 (by rw [ha]; simp))
    have e2 := g.only q' ((h2 q').1 (by rw [ha]; simp))
    rw [ha, e1, e2] at h1
    simp at h1

theorem first_of (hv : Valid S fn) {b s} (g : Sole fn b s) {φ rest} (h : (fn.block s).phis = φ :: rest) :
    ∃ d a t, φ = ⟨d, t, [(a, b)]⟩ ∧ First fn b s d a t rest := by
  obtain ⟨a, ha⟩ := args_of hv g (φ := φ) (by rw [h]; simp)
  obtain ⟨d, t, args⟩ := φ
  simp only at ha
  subst ha
  exact ⟨d, a, t, rfl, g, [], rest, h, rfl⟩

/-- The function without the phi. -/
def drop1 (fn : Fn) (s : Lab) (d a : Id) (rest : List Phi) : Fn :=
  { fn with block := fun x => subBlock d a (if x = s then { fn.block s with phis := rest } else fn.block x) }

variable {b s : Lab} {d a : Id} {t : Bool} {rest : List Phi}

theorem drop_first (h : (fn.block s).phis = ⟨d, t, [(a, b)]⟩ :: rest) : dropPhi fn s = drop1 fn s d a rest := by
  unfold dropPhi
  rw [h]
  rfl

theorem First.perm (g : First fn b s d a t rest) : (fn.block s).phis.Perm (⟨d, t, [(a, b)]⟩ :: rest) := by
  obtain ⟨u, v, h1, rfl⟩ := g.phis
  rw [h1]
  exact List.perm_middle

theorem First.mem (g : First fn b s d a t rest) {φ} :
    φ ∈ (fn.block s).phis ↔ φ = ⟨d, t, [(a, b)]⟩ ∨ φ ∈ rest := by
  rw [g.perm.mem_iff, List.mem_cons]

theorem First.find (g : First fn b s d a t rest) {x} (hx : x ≠ d) :
    (fn.block s).phis.find? (fun φ => decide (φ.id = x)) = rest.find? (fun φ => decide (φ.id = x)) := by
  obtain ⟨u, v, h1, rfl⟩ := g.phis
  rw [h1, List.find?_append, List.find?_append, List.find?_cons_of_neg (by simpa using Ne.symm hx)]

theorem First.find_d (g : First fn b s d a t rest) (hn : ((fn.block s).phis.map Phi.id).Nodup) :
    (fn.block s).phis.find? (fun φ => decide (φ.id = d)) = some ⟨d, t, [(a, b)]⟩ := by
  obtain ⟨u, v, h1, rfl⟩ := g.phis
  rw [h1] at hn ⊢
  rw [List.find?_append, List.find?_eq_none.2, List.find?_cons_of_pos (by simp)]
  · rfl
  · intro φ hφ e
    have e : φ.id = d := by simpa using e
    rw [List.map_append, List.nodup_append] at hn
    exact hn.2.2 φ.id (List.mem_map.2 ⟨φ, hφ, rfl⟩) d (by simp) e

theorem drop_term (x : Lab) : ((drop1 fn s d a rest).block x).term = subTerm d a (fn.block x).term := by
  simp only [drop1, subBlock]
  split
  · rename_i h; rw [h]
  · rfl

theorem drop_body (x : Lab) : ((drop1 fn s d a rest).block x).body = (fn.block x).body.map (subInst d a) := by
  simp only [drop1, subBlock]
  split
  · rename_i h; rw [h]
  · rfl

theorem drop_merge (x : Lab) : ((drop1 fn s d a rest).block x).merge = (fn.block x).merge := by
  simp only [drop1, subBlock]
  split
  · rename_i h; rw [h]
  · rfl

theorem drop_phis_s : ((drop1 fn s d a rest).block s).phis = rest.map (subPhi d a) := by
  simp [drop1, subBlock]

theorem drop_phis {x : Lab} (h : x ≠ s) :
    ((drop1 fn s d a rest).block x).phis = (fn.block x).phis.map (subPhi d a) := by
  simp [drop1, subBlock, h]

theorem First.mem_phis (g : First fn b s d a t rest) {x ψ} (h : ψ ∈ ((drop1 fn s d a rest).block x).phis) :
    ∃ φ ∈ (fn.block x).phis, ψ = subPhi d a φ := by
  by_cases hx : x = s
  · subst hx
    rw [drop_phis_s] at h
    obtain ⟨φ, h1, h2⟩ := List.mem_map.1 h
    exact ⟨φ, g.mem.2 (.inr h1), h2.symm⟩
  · rw [drop_phis hx] at h
    obtain ⟨φ, h1, h2⟩ := List.mem_map.1 h
    exact ⟨φ, h1, h2.symm⟩

theorem subTerm_succs (T : Term) : (subTerm d a T).succs = T.succs := by
  cases T <;> rfl

theorem drop_succs (x : Lab) : (drop1 fn s d a rest).succs x = fn.succs x := by
  simp only [Fn.succs, drop_term, subTerm_succs]

theorem drop_path {l} : Path (drop1 fn s d a rest) l ↔ Path fn l := by
  constructor
  · intro h
    induction h with
    | entry => exact .entry
    | next _ hs ih => exact ih.next (by rwa [drop_succs] at hs)
  · intro h
    induction h with
    | entry => exact .entry (fn := drop1 fn s d a rest)
    | next _ hs ih => exact ih.next (by rwa [drop_succs])

theorem drop_dom {x y} : Dominates (drop1 fn s d a rest) x y ↔ Dominates fn x y := by
  unfold Dominates
  constructor <;> intro h l hp
  · exact h l (drop_path.2 hp)
  · exact h l (drop_path.1 hp)

theorem drop_reachable {x} : Reachable (drop1 fn s d a rest) x ↔ Reachable fn x := by
  unfold Reachable
  simp only [drop_path]

@[simp] theorem instId_sub (i : Inst) : instId (subInst d a i) = instId i := by cases i <;> rfl

theorem map_instId_sub (l : List Inst) : (l.map (subInst d a)).map instId = l.map instId := by
  rw [List.map_map]
  exact List.map_congr_left fun i _ => instId_sub i

theorem map_phiId_sub (l : List Phi) : (l.map (subPhi d a)).map Phi.id = l.map Phi.id := by
  rw [List.map_map]
  exact List.map_congr_left fun i _ => rfl

theorem reads_sub (i : Inst) : reads (subInst d a i) = (reads i).map (sub d a) := by cases i <;> rfl

theorem termReads_sub (T : Term) : termReads (subTerm d a T) = (termReads T).map (sub d a) := by cases T <;> rfl

/-! ### Definitions -/

theorem First.defs_s (g : First fn b s d a t rest) :
    (defs (fn.block s)).Perm (d :: defs ((drop1 fn s d a rest).block s)) := by
  unfold defs
  rw [drop_phis_s, drop_body, map_phiId_sub, map_instId_sub]
  exact (g.perm.map Phi.id).append_right _

theorem drop_defs {x : Lab} (h : x ≠ s) : defs ((drop1 fn s d a rest).block x) = defs (fn.block x) := by
  unfold defs
  rw [drop_phis h, drop_body, map_phiId_sub, map_instId_sub]

theorem First.d_def (g : First fn b s d a t rest) : d ∈ defs (fn.block s) :=
  g.defs_s.mem_iff.2 (by simp)

theorem First.d_body (g : First fn b s d a t rest) (hv : Valid S fn) (x : Lab) :
    d ∉ (fn.block x).body.map instId := by
  intro h
  have hx := hv.once d x s (List.mem_append_right _ h) g.d_def
  subst hx
  have := hv.nodup x
  unfold defs at this
  rw [List.nodup_append] at this
  exact this.2.2 d ((g.perm.map Phi.id).mem_iff.2 (by simp)) d h rfl

theorem First.d_rest (g : First fn b s d a t rest) (hv : Valid S fn) : d ∉ rest.map Phi.id := by
  intro h
  have := (g.perm.map Phi.id).nodup_iff.1 (hv.phi_nodup s)
  simp only [List.map_cons, List.nodup_cons] at this
  exact this.1 h

theorem First.mem_defs (g : First fn b s d a t rest) (hv : Valid S fn) {x y} :
    x ∈ defs ((drop1 fn s d a rest).block y) ↔ x ≠ d ∧ x ∈ defs (fn.block y) := by
  by_cases hy : y = s
  · subst hy
    have hn := hv.nodup y
    rw [g.defs_s.mem_iff]
    rw [g.defs_s.nodup_iff] at hn
    have := (List.nodup_cons.1 hn).1
    constructor
    · intro h
      exact ⟨fun e => this (e ▸ h), List.mem_cons_of_mem _ h⟩
    · rintro ⟨h1, h2⟩
      exact (List.mem_cons.1 h2).resolve_left h1
  · rw [drop_defs hy]
    refine ⟨fun h => ⟨?_, h⟩, fun h => h.2⟩
    rintro rfl
    exact hy (hv.once x y s h g.d_def)

theorem First.avail_a (g : First fn b s d a t rest) (hv : Valid S fn) : Avail S fn a b :=
  hv.phi_avail s ⟨d, t, [(a, b)]⟩ (g.mem.2 (.inl rfl)) (a, b) (by simp)

theorem First.a_ne (g : First fn b s d a t rest) (hv : Valid S fn) : a ≠ d := by
  rintro rfl
  exact g.not_dom hv (avail_dom hv.toBase g.d_def (g.avail_a hv))

/-- Where `a` is defined. -/
theorem First.a_def (g : First fn b s d a t rest) (hv : Valid S fn) {D} (h : a ∈ defs (fn.block D)) :
    Dominates fn D b ∧ D ≠ s ∧ Reachable fn D := by
  have h1 := avail_dom hv.toBase h (g.avail_a hv)
  refine ⟨h1, ?_, ?_⟩
  · rintro rfl; exact g.not_dom hv h1
  · obtain ⟨l, hl⟩ := g.reach
    obtain ⟨u, r, e⟩ := List.append_of_mem (h1 l hl)
    exact ⟨r, hl.suffix e⟩

/-- `a` has its value wherever `d` has. -/
theorem First.avail (g : First fn b s d a t rest) (hv : Valid S fn) {x y} (h : Avail S fn x y) :
    Avail S (drop1 fn s d a rest) (sub d a x) y := by
  by_cases hx : x = d
  · subst hx
    simp only [sub, if_true]
    have hy := avail_dom hv.toBase g.d_def h
    rcases g.avail_a hv with ⟨h1, h2⟩ | ⟨D, h1, h2⟩
    · exact .inl ⟨h1, fun y' hy' => h2 y' ((g.mem_defs hv).1 hy').2⟩
    · exact .inr ⟨D, (g.mem_defs hv).2 ⟨g.a_ne hv, h1⟩, drop_dom.2 ((h2.trans (g.dom hv)).trans hy)⟩
  · simp only [sub, if_neg hx]
    rcases h with ⟨h1, h2⟩ | ⟨D, h1, h2⟩
    · exact .inl ⟨h1, fun y' hy' => h2 y' ((g.mem_defs hv).1 hy').2⟩
    · exact .inr ⟨D, (g.mem_defs hv).2 ⟨hx, h1⟩, drop_dom.2 h2⟩

/-- The same for arrivals; `x` may be a phi of `y`. -/
theorem First.outside (g : First fn b s d a t rest) (hv : Valid S fn) {x y}
    (h : Outside S fn x y ∨ (x = d ∧ y = s)) : Outside S (drop1 fn s d a rest) (sub d a x) y := by
  by_cases hx : x = d
  · subst hx
    simp only [sub, if_true]
    have hy : Dominates fn s y := by
      rcases h with (⟨_, h⟩ | ⟨D, _, h1, h2⟩) | ⟨_, h⟩
      · exact absurd g.d_def (h s)
      · rw [hv.once x s D g.d_def h1]; exact h2
      · rw [h]; exact Dominates.refl _
    rcases g.avail_a hv with ⟨h1, h2⟩ | ⟨D, h1, h2⟩
    · exact .inl ⟨h1, fun y' hy' => h2 y' ((g.mem_defs hv).1 hy').2⟩
    · refine .inr ⟨D, ?_, (g.mem_defs hv).2 ⟨g.a_ne hv, h1⟩, drop_dom.2 ((h2.trans (g.dom hv)).trans hy)⟩
      rintro rfl
      obtain ⟨h3, h4, h5⟩ := g.a_def hv h1
      exact h4 ((h3.trans (g.dom hv)).antisymm hy g.reach_s)
  · simp only [sub, if_neg hx]
    rcases h with (⟨h1, h2⟩ | ⟨D, h0, h1, h2⟩) | ⟨h, _⟩
    · exact .inl ⟨h1, fun y' hy' => h2 y' ((g.mem_defs hv).1 hy').2⟩
    · exact .inr ⟨D, h0, (g.mem_defs hv).2 ⟨hx, h1⟩, drop_dom.2 h2⟩
    · exact absurd h hx

theorem First.valid (g : First fn b s d a t rest) (hv : Valid S fn) : Valid S (drop1 fn s d a rest) where
  entry_phis := by
    show ((drop1 fn s d a rest).block fn.entry).phis = []
    rw [drop_phis (Ne.symm (g.entry hv)), hv.entry_phis]; rfl
  entry_preds x := by rw [drop_succs]; exact hv.entry_preds x
  labels x := by rw [drop_succs]; exact hv.labels x
  phi_preds x ψ hψ := by
    simp only [drop_succs]
    obtain ⟨φ, h1, rfl⟩ := g.mem_phis hψ
    have := hv.phi_preds x φ h1
    have hm : (subPhi d a φ).args.map (·.2) = φ.args.map (·.2) := by
      simp [subPhi, List.map_map, Function.comp_def]
    rw [hm]; exact this
  phi_nodup x := by
    by_cases hx : x = s
    · subst hx
      rw [drop_phis_s, map_phiId_sub]
      exact (List.nodup_cons.1 ((g.perm.map Phi.id).nodup_iff.1 (hv.phi_nodup x))).2
    · rw [drop_phis hx, map_phiId_sub]; exact hv.phi_nodup x
  phi_avail x ψ hψ y hy := by
    obtain ⟨φ, h1, rfl⟩ := g.mem_phis hψ
    simp only [subPhi, List.mem_map] at hy
    obtain ⟨z, h2, rfl⟩ := hy
    exact g.avail hv (hv.phi_avail x φ h1 z h2)
  cond_avail x c T F ht := by
    rw [drop_term] at ht
    cases hT : (fn.block x).term with
    | br _ => rw [hT] at ht; cases ht
    | multi _ _ _ => rw [hT] at ht; cases ht
    | cond c' T' F' =>
      rw [hT] at ht
      simp only [subTerm, Term.cond.injEq] at ht
      rw [← ht.1]
      exact g.avail hv (hv.cond_avail x c' T' F' hT)
  listed x hx := by
    have hx' : x ∉ fn.labels := hx
    obtain ⟨h1, h2, h3⟩ := hv.listed x hx'
    have hxs : x ≠ s := by rintro rfl; exact hx' (g.listed_s hv)
    rw [drop_phis hxs, drop_body, drop_term, termReads_sub, h1, h2, h3]
    simp
  targets x y hy := by rw [drop_succs] at hy; exact hv.targets x y hy
  once x y y' h1 h2 := hv.once x y y' ((g.mem_defs hv).1 h1).2 ((g.mem_defs hv).1 h2).2
  nodup x := by
    by_cases hx : x = s
    · subst hx
      exact (List.nodup_cons.1 (g.defs_s.nodup_iff.1 (hv.nodup x))).2
    · rw [drop_defs hx]; exact hv.nodup x
  ready y pre i post e x hx := by
    rw [drop_body] at e
    obtain ⟨pre0, r0, e1, e2, e3⟩ := List.map_eq_append_iff.1 e
    obtain ⟨i0, post0, e4, e5, e6⟩ := List.map_eq_cons_iff.1 e3
    subst e2; subst e4; subst e5
    rw [reads_sub] at hx
    obtain ⟨x0, hx0, rfl⟩ := List.mem_map.1 hx
    rw [map_instId_sub]
    have key := hv.ready y pre0 i0 post0 e1 x0 hx0
    by_cases hxd : x0 = d
    · refine .inr (.inr (g.outside hv ?_))
      rcases key with h | h | h
      · exact .inr ⟨hxd, hv.once d y s (List.mem_append_left _ (hxd ▸ h)) g.d_def⟩
      · exact absurd (by rw [e1, List.map_append]; exact List.mem_append_left _ (hxd ▸ h)) (g.d_body hv y)
      · exact .inl h
    · have hs : sub d a x0 = x0 := by simp [sub, hxd]
      rcases key with h | h | h
      · refine .inl ?_
        rw [hs]
        by_cases hy : y = s
        · subst hy
          rw [drop_phis_s, map_phiId_sub]
          exact (List.mem_cons.1 ((g.perm.map Phi.id).mem_iff.1 h)).resolve_left hxd
        · rw [drop_phis hy, map_phiId_sub]; exact h
      · exact .inr (.inl (by rw [hs]; exact h))
      · exact .inr (.inr (g.outside hv (.inl h)))
  term y x hx := by
    rw [drop_term, termReads_sub] at hx
    obtain ⟨x0, hx0, rfl⟩ := List.mem_map.1 hx
    exact g.avail hv (hv.term y x0 hx0)
  header y m df hm := by
    rw [drop_merge] at hm
    obtain ⟨h1, h2, h3⟩ := hv.header y m df hm
    exact ⟨drop_dom.2 h1, h2, h3⟩
  first := hv.first

theorem First.sole (g : First fn b s d a t rest) : Sole (drop1 fn s d a rest) b s :=
  ⟨by rw [drop_succs]; exact g.succ, fun p hp => g.only p (by rwa [drop_succs] at hp), drop_reachable.2 g.reach⟩

theorem drop_only (g : Only fn b s) : Only (drop1 fn s d a rest) b s :=
  ⟨⟨by rw [drop_succs]; exact g.succ, fun p hp => g.only p (by rwa [drop_succs] at hp), drop_reachable.2 g.reach⟩,
    by rw [drop_term, g.term]; rfl⟩

end Verif.BlockMerge.Spec
