import Verif.DeadBranch.Fix

/-!
# Lemmas: phis and predecessors, with blocks that are kept empty (C74)
-/

set_option linter.unusedSimpArgs false
set_option linter.unusedVariables false
set_option linter.unusedSectionVars false

namespace Verif.DeadBranch.Spec
open Verif.IfConv Verif.BlockMerge Verif.CodeSink Verif.BlockMerge.Spec
open Verif.CodeSink.Spec hiding Valid
open Verif.IfConv.Spec hiding Valid Right

variable {V M : Type} {S : Sem V M} {fn F G : Fn} {A : Info} {L : List Lab}

/-- `c` is the dead continue target of the live loop header `s`. -/
def Cont (L : List Lab) (F : Fn) (s c : Lab) : Prop :=
  c ∉ L ∧ s ∈ L ∧ s ∈ F.labels ∧ ∃ m, (F.block s).merge = some (.loop m c)

theorem Cont.inj {s c c'} (h : Cont L F s c) (h' : Cont L F s c') : c = c' := by
  obtain ⟨_, _, _, m, h⟩ := h
  obtain ⟨_, _, _, m', h'⟩ := h'
  rw [h] at h'
  cases h'; rfl

/-- Continue targets are of one loop. -/
def Uniq (F : Fn) : Prop := ∀ h h' m m' c, h ∈ F.labels → h' ∈ F.labels → (F.block h).merge = some (.loop m c) →
  (F.block h').merge = some (.loop m' c) → h = h'

theorem deadCont_cont {s c} (h : deadCont F L c = some s) : Cont L F s c := by
  have h0 := deadCont_dead h
  unfold deadCont at h
  rw [if_neg (by simpa using h0)] at h
  have h1 := List.mem_of_find?_eq_some h
  have h2 := List.find?_some h
  simp only [Bool.and_eq_true, List.contains_iff_mem] at h2
  refine ⟨h0, h2.1, h1, ?_⟩
  have h3 := h2.2
  split at h3
  · rename_i m c' e
    simp only [beq_iff_eq] at h3
    subst h3
    exact ⟨m, e⟩
  · cases h3

theorem cont_deadCont (hu : Uniq F) {s c} (h : Cont L F s c) : deadCont F L c = some s := by
  cases hd : deadCont F L c with
  | some s' =>
    obtain ⟨_, _, h1, m, h2⟩ := deadCont_cont hd
    obtain ⟨_, _, h3, m', h4⟩ := h
    rw [hu s' s m m' c h1 h3 h2 h4]
  | none =>
    exfalso
    obtain ⟨h0, h1, h2, m, h3⟩ := h
    unfold deadCont at hd
    rw [if_neg (by simpa using h0)] at hd
    have := List.find?_eq_none.1 hd s h2
    simp [h1, h3] at this

theorem deadCont_congr {G : Fn} (hl : G.labels = F.labels) (hm : ∀ x, (G.block x).merge = (F.block x).merge) (x : Lab) :
    deadCont G L x = deadCont F L x := by
  unfold deadCont
  rw [hl]
  simp only [hm]

/-! ### The values of a phi -/

/-- What a phi of a live block has at any time. -/
structure Pre (fn F : Fn) (L : List Lab) (s : Lab) (φ : Phi) : Prop where
  nodup : (φ.args.map (·.2)).Nodup
  live : ∀ p, p ∈ L → s ∈ F.succs p → p ∈ φ.args.map (·.2)
  back : ∀ c, Cont L F s c → ∃ q ∈ φ.args.map (·.2), Dominates fn c q

/-- And what it has in the end. -/
structure Done (S : Sem V M) (fn F : Fn) (L : List Lab) (s : Lab) (φ : Phi) : Prop where
  only : ∀ p ∈ φ.args.map (·.2), (p ∈ L ∧ s ∈ F.succs p) ∨ Cont L F s p
  cont : ∀ c, Cont L F s c → c ∈ φ.args.map (·.2)
  undef : ∀ x ∈ φ.args, x.2 ∉ L → Global S fn x.1

theorem filterMap_self {α} {f : α → Option α} : ∀ {l : List α}, l.filterMap f = l → ∀ x ∈ l, f x = some x
  | [], _, _, h => by cases h
  | x :: l, e, y, hy => by
    rw [List.filterMap_cons] at e
    cases hx : f x with
    | none =>
      rw [hx] at e
      have := congrArg List.length e
      have h2 := List.length_filterMap_le f l
      simp only [List.length_cons] at this
      omega
    | some z =>
      rw [hx] at e
      simp only [List.cons.injEq] at e
      obtain ⟨rfl, e⟩ := e
      rcases List.mem_cons.1 hy with rfl | hy
      · exact hx
      · exact filterMap_self e y hy

theorem keep_some {s φ x y} (hu : Undefs S fn A) (h : keepArg F A L s φ x = some y) :
    y.2 = x.2 ∧ ((Cont L F s y.2 ∧ φ.args.length > 2 ∧ Global S fn y.1) ∨ (y.2 ∈ L ∧ s ∈ F.succs y.2 ∧ y = x)) := by
  unfold keepArg at h
  split at h
  · rename_i hc
    cases h
    refine ⟨rfl, .inl ⟨deadCont_cont hc.1, hc.2, ?_⟩⟩
    simp only
    split
    · rename_i hi; exact hu.old _ hi
    · exact hu.new _
  · split at h
    · rename_i hc
      cases h
      exact ⟨rfl, .inr ⟨hc.1, hc.2, rfl⟩⟩
    · cases h

theorem keep_edge {s φ x} (h1 : x.2 ∈ L) (h2 : s ∈ F.succs x.2) : keepArg F A L s φ x = some x := by
  unfold keepArg
  rw [if_neg (fun h => deadCont_dead h.1 h1), if_pos ⟨h1, h2⟩]

theorem keep_labels {s φ} : ∀ (args : List (Id × Lab)),
    ((args.filterMap (keepArg F A L s φ)).map (·.2)).Sublist (args.map (·.2))
  | [] => .slnil
  | x :: args => by
    rw [List.filterMap_cons]
    cases hk : keepArg F A L s φ x with
    | none => exact (keep_labels args).cons _
    | some y =>
      have : y.2 = x.2 := by
        unfold keepArg at hk
        split at hk
        · cases hk; rfl
        · split at hk
          · cases hk; rfl
          · cases hk
      simp only [List.map_cons, this]
      exact (keep_labels args).cons₂ _

/-- A block that dominates a block and is dead: the block is dead. -/
def Below (fn : Fn) (L : List Lab) : Prop := ∀ a b, b ∈ L → Dominates fn a b → a ∈ L

theorem done_same (hu : Undefs S fn A) (hb : Below fn L) {s φ} (hp : Pre fn F L s φ)
    (h : φ.args.filterMap (keepArg F A L s φ) = φ.args) : Done S fn F L s φ := by
  have key : ∀ x ∈ φ.args, (Cont L F s x.2 ∧ Global S fn x.1) ∨ (x.2 ∈ L ∧ s ∈ F.succs x.2) := by
    intro x hx
    rcases (keep_some hu (filterMap_self h x hx)).2 with h | h
    · exact .inl ⟨h.1, h.2.2⟩
    · exact .inr ⟨h.1, h.2.1⟩
  refine ⟨fun p hp => ?_, fun c hc => ?_, fun x hx hn => ?_⟩
  · obtain ⟨x, hx, rfl⟩ := List.mem_map.1 hp
    rcases key x hx with h | h
    · exact .inr h.1
    · exact .inl h
  · obtain ⟨q, hq, hd⟩ := hp.back c hc
    obtain ⟨x, hx, rfl⟩ := List.mem_map.1 hq
    rcases key x hx with h | h
    · rw [hc.inj h.1]; exact hq
    · exact absurd (hb c x.2 h.1 hd) hc.1
  · rcases key x hx with h | h
    · exact h.2
    · exact absurd h.1 hn

theorem done_new (hu : Undefs S fn A) (huq : Uniq F) {s φ args} (hp : Pre fn F L s φ)
    (hs : s ∈ L) (hsl : s ∈ F.labels) (hl : ∃ p ∈ L, s ∈ F.succs p)
    (h : addBack F A L s φ (φ.args.filterMap (keepArg F A L s φ)) = args) (hn : ∀ a p, args ≠ [(a, p)])
    (hdom : ∀ c, Dominates fn c c) :
    Pre fn F L s { φ with args := args } ∧ Done S fn F L s { φ with args := args } := by
  generalize hk : φ.args.filterMap (keepArg F A L s φ) = ks at h
  have hsub := keep_labels (F := F) (A := A) (L := L) (s := s) (φ := φ) φ.args
  rw [hk] at hsub
  have hkn : (ks.map (·.2)).Nodup := hp.nodup.sublist hsub
  have hkey : ∀ y ∈ ks, (Cont L F s y.2 ∧ φ.args.length > 2 ∧ Global S fn y.1) ∨ (y.2 ∈ L ∧ s ∈ F.succs y.2) := by
    intro y hy
    rw [← hk] at hy
    obtain ⟨x, _, hx⟩ := List.mem_filterMap.1 hy
    rcases (keep_some hu hx).2 with h | h
    · exact .inl h
    · exact .inr ⟨h.1, h.2.1⟩
  have hlive : ∀ p, p ∈ L → s ∈ F.succs p → p ∈ ks.map (·.2) := by
    intro p h1 h2
    obtain ⟨x, hx, rfl⟩ := List.mem_map.1 (hp.live p h1 h2)
    refine List.mem_map.2 ⟨x, ?_, rfl⟩
    rw [← hk]
    exact List.mem_filterMap.2 ⟨x, hx, keep_edge h1 h2⟩
  have hback : hasBack F L s φ = true → ∀ c, Cont L F s c → c ∈ ks.map (·.2) := by
    intro hb c hc
    simp only [hasBack, List.any_eq_true, Bool.and_eq_true, beq_iff_eq, decide_eq_true_eq] at hb
    obtain ⟨x, hx, h1, h2⟩ := hb
    have hxc : x.2 = c := (deadCont_cont h1).inj hc
    refine List.mem_map.2 ⟨(if A.isUndef x.1 then x.1 else A.undef φ.id, x.2), ?_, hxc⟩
    rw [← hk]
    refine List.mem_filterMap.2 ⟨x, hx, ?_⟩
    unfold keepArg
    rw [if_pos ⟨h1, h2⟩]
  have hnoback : hasBack F L s φ = false → ∀ y ∈ ks, y.2 ∈ L := by
    intro hb y hy
    rcases hkey y hy with ⟨h1, h2, _⟩ | h
    · exfalso
      have hbt : hasBack F L s φ = true := by
        simp only [hasBack, List.any_eq_true, Bool.and_eq_true, beq_iff_eq, decide_eq_true_eq]
        have : y.2 ∈ φ.args.map (·.2) := hsub.subset (List.mem_map.2 ⟨y, hy, rfl⟩)
        obtain ⟨x, hx, e⟩ := List.mem_map.1 this
        exact ⟨x, hx, by rw [e]; exact cont_deadCont huq h1, h2⟩
      rw [hbt] at hb; cases hb
    · exact h.1
  have fin : (args.map (·.2)).Nodup → (∀ y ∈ ks, y ∈ args) → (∀ x ∈ args, x ∈ ks ∨ (Cont L F s x.2 ∧ Global S fn x.1)) →
      (∀ c, Cont L F s c → c ∈ args.map (·.2)) →
      Pre fn F L s { φ with args := args } ∧ Done S fn F L s { φ with args := args } := by
    intro h1 h2 h3 h4
    refine ⟨⟨h1, fun p hp1 hp2 => ?_, fun c hc => ⟨c, h4 c hc, hdom c⟩⟩, fun p hp => ?_, h4, fun x hx hxn => ?_⟩
    · obtain ⟨y, hy, e⟩ := List.mem_map.1 (hlive p hp1 hp2)
      exact List.mem_map.2 ⟨y, h2 y hy, e⟩
    · obtain ⟨x, hx, rfl⟩ := List.mem_map.1 hp
      rcases h3 x hx with h | h
      · rcases hkey x h with h | h
        · exact .inr h.1
        · exact .inl h
      · exact .inr h.1
    · rcases h3 x hx with h | h
      · rcases hkey x h with h | h
        · exact h.2.2
        · exact absurd h.1 hxn
      · exact h.2
  have hks : ks ≠ [] := by
    obtain ⟨p, h1, h2⟩ := hl
    have := hlive p h1 h2
    intro e
    rw [e] at this
    cases this
  -- without a value added
  have same : args = ks → (∀ c, Cont L F s c → c ∈ ks.map (·.2)) → _ := fun e hc =>
    fin (e ▸ hkn) (fun y hy => e ▸ hy) (fun x hx => .inl (e ▸ hx)) (fun c h => e ▸ hc c h)
  have one : args = ks → ¬ ks.length > 1 → False := by
    intro e hlen
    match ks, hks, hlen, e with
    | [(a, p)], _, _, e => exact hn a p e
    | [], h, _, _ => exact h rfl
    | _ :: _ :: _, _, h, _ => simp at h
  unfold addBack at h
  split at h
  · rename_i m c hm
    by_cases hc : Cont L F s c
    · cases hb : hasBack F L s φ with
      | true =>
        rw [hb] at h
        simp at h
        exact same h.symm (hback hb)
      | false =>
        by_cases hlen : ks.length > 1
        · rw [hb, cont_deadCont huq hc] at h
          simp [hlen] at h
          subst h
          refine fin ?_ (fun y hy => List.mem_append_left _ hy) (fun x hx => ?_) (fun c' hc' => ?_)
          · rw [List.map_append, List.nodup_append]
            refine ⟨hkn, by simp, fun x hx y hy => ?_⟩
            simp at hy
            subst hy
            rintro rfl
            obtain ⟨z, hz, e⟩ := List.mem_map.1 hx
            have := hnoback hb z hz
            rw [e] at this
            exact hc.1 this
          · rcases List.mem_append.1 hx with h | h
            · exact .inl h
            · simp at h
              subst h
              exact .inr ⟨hc, hu.new _⟩
          · rw [hc'.inj hc]; simp
        · simp [hlen] at h
          exact (one h.symm hlen).elim
    · have hno : ∀ c', ¬ Cont L F s c' := by
        intro c' h'
        obtain ⟨h1, h2, h3, m', h4⟩ := h'
        rw [hm] at h4
        cases h4
        exact hc ⟨h1, h2, h3, m, hm⟩
      split at h
      · rename_i hcond
        exfalso
        simp only [Bool.and_eq_true] at hcond
        obtain ⟨s', hs'⟩ := Option.isSome_iff_exists.1 hcond.1.2
        obtain ⟨h1, h2, h3, m', h4⟩ := deadCont_cont hs'
        exact hno c ⟨h1, hs, hsl, m, hm⟩
      · exact same h.symm (fun c' h' => absurd h' (hno c'))
  · rename_i hm
    exact same h.symm (fun c' h' => by obtain ⟨_, _, _, m, h⟩ := h'; exact absurd h (hm _ _))

/-! ### All phis -/

theorem keep_congr (hl : G.labels = F.labels) (hs : ∀ x, G.succs x = F.succs x)
    (hm : ∀ x, (G.block x).merge = (F.block x).merge) : keepArg G A L = keepArg F A L := by
  funext s φ x
  simp only [keepArg, deadCont_congr hl hm, hs]

theorem add_congr (hl : G.labels = F.labels) (hs : ∀ x, G.succs x = F.succs x)
    (hm : ∀ x, (G.block x).merge = (F.block x).merge) : addBack G A L = addBack F A L := by
  funext s φ args
  have hb : hasBack G L s φ = hasBack F L s φ := by simp only [hasBack, deadCont_congr hl hm]
  unfold addBack
  rw [hm]
  split
  · rw [hb, deadCont_congr hl hm]
  · rfl

structure Inv2 (S : Sem V M) (fn F : Fn) (L : List Lab) (D : Lab × Id → Prop) (G : Fn) : Prop where
  phi : ∀ s ∈ L, ∀ φ ∈ (G.block s).phis, Pre fn F L s φ ∧ (D (s, φ.id) → Done S fn F L s φ)
  ids : ∀ s, ∀ φ ∈ (G.block s).phis, φ.id ∈ (F.block s).phis.map Phi.id

theorem Pre.sub {s φ} (d a : Id) (h : Pre fn F L s φ) : Pre fn F L s (subPhi d a φ) := by
  have hm : (subPhi d a φ).args.map (·.2) = φ.args.map (·.2) := by
    simp [subPhi, List.map_map, Function.comp_def]
  exact ⟨by rw [hm]; exact h.nodup, by rw [hm]; exact h.live, by rw [hm]; exact h.back⟩

theorem Done.sub {s φ} {d : Id} (a : Id) (hd : ¬ Global S fn d) (h : Done S fn F L s φ) :
    Done S fn F L s (subPhi d a φ) := by
  have hm : (subPhi d a φ).args.map (·.2) = φ.args.map (·.2) := by
    simp [subPhi, List.map_map, Function.comp_def]
  refine ⟨by rw [hm]; exact h.only, by rw [hm]; exact h.cont, fun x hx hn => ?_⟩
  simp only [subPhi, List.mem_map] at hx
  obtain ⟨y, hy, rfl⟩ := hx
  have := h.undef y hy hn
  simp only [Verif.BlockMerge.sub]
  split
  · rename_i e; rw [e] at this; exact absurd this hd
  · exact this

theorem Inv2.step (hu : Undefs S fn A) (huq : Uniq F) (hb : Below fn L) (hdom : ∀ c, Dominates fn c c)
    (hfd : ∀ s, ∀ d ∈ (F.block s).phis.map Phi.id, ¬ Global S fn d)
    (hl : ∀ s ∈ L, s ∈ F.labels ∧ (s ≠ F.entry → ∃ p ∈ L, s ∈ F.succs p)) (he : (F.block F.entry).phis = [])
    (hn : ∀ s, ((F.block s).phis.map Phi.id).Nodup)
    (hi : Inv S L F G) {D} (h : Inv2 S fn F L D G) {s : Lab} (hs : s ∈ L) (d : Id) :
    Inv2 S fn F L (fun x => D x ∨ x = (s, d)) (fixPhi A L G (s, d)) := by
  have hnod : ((G.block s).phis.map Phi.id).Nodup := by
    have := hi.valid.phi_nodup s
    rwa [trim_ids, if_pos hs] at this
  unfold fixPhi
  simp only
  split
  · rename_i hf
    refine ⟨fun y hy φ hφ => ⟨(h.phi y hy φ hφ).1, ?_⟩, h.ids⟩
    rintro (hD | e)
    · exact (h.phi y hy φ hφ).2 hD
    · simp only [Prod.mk.injEq] at e
      obtain ⟨rfl, e⟩ := e
      have := List.find?_eq_none.1 hf φ hφ
      simp [e] at this
  · rename_i φ hf
    obtain ⟨rfl, hφ, u, v, huv⟩ := find_split hf
    have hpre := (h.phi s hs φ hφ).1
    rw [keep_congr hi.labels hi.succs hi.merge, add_congr hi.labels hi.succs hi.merge]
    split
    · rename_i hsame
      refine ⟨fun y hy ψ hψ => ⟨(h.phi y hy ψ hψ).1, ?_⟩, h.ids⟩
      rintro (hD | e)
      · exact (h.phi y hy ψ hψ).2 hD
      · simp only [Prod.mk.injEq] at e
        obtain ⟨rfl, e⟩ := e
        have := id_inj hnod hψ hφ e
        subst this
        exact done_same hu hb hpre hsame
    · have hne : s ≠ F.entry := by
        rintro rfl
        have := h.ids _ φ hφ
        rw [he] at this
        cases this
      split
      · rename_i a p hargs
        have hg : ¬ Global S fn φ.id := hfd s _ (h.ids s φ hφ)
        have hmem : ∀ y ψ', ψ' ∈ ((kill G s φ.id a).block y).phis →
            ∃ ψ ∈ (G.block y).phis, ψ' = subPhi φ.id a ψ ∧ (y, ψ.id) ≠ (s, φ.id) := by
          intro y ψ' hψ'
          simp only [kill, subBlock] at hψ'
          obtain ⟨ψ, h1, rfl⟩ := List.mem_map.1 hψ'
          split at h1
          · rename_i e
            subst e
            obtain ⟨h1, h2⟩ := List.mem_filter.1 h1
            refine ⟨ψ, h1, rfl, fun e => ?_⟩
            simp only [Prod.mk.injEq, true_and] at e
            simp [e] at h2
          · rename_i e
            exact ⟨ψ, h1, rfl, fun e' => e (by simp at e'; exact e'.1)⟩
        refine ⟨fun y hy ψ' hψ' => ?_, fun y ψ' hψ' => ?_⟩
        · obtain ⟨ψ, h1, rfl, h2⟩ := hmem y ψ' hψ'
          refine ⟨(h.phi y hy ψ h1).1.sub _ _, ?_⟩
          rintro (hD | e)
          · exact ((h.phi y hy ψ h1).2 hD).sub _ hg
          · exact absurd e h2
        · obtain ⟨ψ, h1, rfl, h2⟩ := hmem y ψ' hψ'
          exact h.ids y ψ h1
      · rename_i args hargs
        have hd := done_new hu huq hpre hs (hl s hs).1 ((hl s hs).2 hne) rfl (fun a p e => hargs a p e) hdom
        generalize addBack F A L s φ (φ.args.filterMap (keepArg F A L s φ)) = args' at hd
        have hmem : ∀ y ψ', ψ' ∈ ((setArgs G s φ.id args').block y).phis →
            (ψ' ∈ (G.block y).phis ∧ (y, ψ'.id) ≠ (s, φ.id)) ∨ (y = s ∧ ψ' = { φ with args := args' }) := by
          intro y ψ' hψ'
          simp only [setArgs] at hψ'
          split at hψ'
          · rename_i e
            subst e
            obtain ⟨ψ, h1, rfl⟩ := List.mem_map.1 hψ'
            by_cases e : ψ.id = φ.id
            · have := id_inj hnod h1 hφ e
              subst this
              exact .inr ⟨rfl, by simp⟩
            · rw [if_neg e]
              exact .inl ⟨h1, fun e' => e (by simp at e'; exact e')⟩
          · rename_i e
            exact .inl ⟨hψ', fun e' => e (by simp at e'; exact e'.1)⟩
        refine ⟨fun y hy ψ' hψ' => ?_, fun y ψ' hψ' => ?_⟩
        · rcases hmem y ψ' hψ' with ⟨h1, h2⟩ | ⟨rfl, rfl⟩
          · refine ⟨(h.phi y hy ψ' h1).1, ?_⟩
            rintro (hD | e)
            · exact (h.phi y hy ψ' h1).2 hD
            · exact absurd e h2
          · exact ⟨hd.1, fun _ => hd.2⟩
        · rcases hmem y ψ' hψ' with ⟨h1, h2⟩ | ⟨rfl, rfl⟩
          · exact h.ids y ψ' h1
          · exact h.ids _ φ hφ

theorem Inv2.steps (hu : Undefs S fn A) (huq : Uniq F) (hb : Below fn L) (hdom : ∀ c, Dominates fn c c)
    (hfd : ∀ s, ∀ d ∈ (F.block s).phis.map Phi.id, ¬ Global S fn d)
    (hl : ∀ s ∈ L, s ∈ F.labels ∧ (s ≠ F.entry → ∃ p ∈ L, s ∈ F.succs p)) (he : (F.block F.entry).phis = [])
    (hn : ∀ s, ((F.block s).phis.map Phi.id).Nodup) :
    ∀ {xs : List (Lab × Id)} {G D}, Inv S L F G → Inv2 S fn F L D G → (∀ x ∈ xs, x.1 ∈ L) →
    Inv2 S fn F L (fun x => D x ∨ x ∈ xs) (xs.foldl (fixPhi A L) G)
  | [], G, D, _, h2, _ => ⟨fun s hs φ hφ => ⟨(h2.phi s hs φ hφ).1, fun hD => (h2.phi s hs φ hφ).2 (by simpa using hD)⟩,
      h2.ids⟩
  | x :: xs, G, D, h1, h2, hx => by
    have := steps hu huq hb hdom hfd hl he hn (xs := xs) (h1.step (A := A) (hx x (by simp)))
      (h2.step hu huq hb hdom hfd hl he hn h1 (hx x (by simp)) x.2) (fun y hy => hx y (List.mem_cons_of_mem _ hy))
    refine ⟨fun s hs φ hφ => ⟨(this.phi s hs φ hφ).1, fun hD => (this.phi s hs φ hφ).2 ?_⟩, this.ids⟩
    rcases hD with h | h
    · exact .inl (.inl h)
    · rcases List.mem_cons.1 h with h | h
      · exact .inl (.inr h)
      · exact .inr h

theorem simp_merge_loop {b m c} : ((simplified fn A).block b).merge = some (.loop m c) →
    (fn.block b).merge = some (.loop m c) := by
  intro h
  simp only [simplified] at h
  split at h
  · simp only [newMerge] at h
    split at h
    · rename_i e; rw [e, h]
    · obtain ⟨x, _, e⟩ := Option.map_eq_some_iff.1 h
      cases e
  · exact h

theorem fixed_done (hv : Valid S fn) (hu : Undefs S fn A) (hlo : Loops fn) :
    ∀ s ∈ live fn A, ∀ φ ∈ ((fixPhis A (live fn A) (simplified fn A)).block s).phis,
      Pre fn (simplified fn A) (live fn A) s φ ∧ Done S fn (simplified fn A) (live fn A) s φ := by
  have hc := simp_closed (A := A) hv.toBase
  have hreach := (live_iff (A := A) hv.labels).2.2
  have hb : Below fn (live fn A) := fun a b h1 h2 => (simp_dom hv.toBase h1 h2).1
  have h2 : Inv2 S fn (simplified fn A) (live fn A) (fun _ => False) (simplified fn A) := by
    refine ⟨fun s hs φ hφ => ⟨?_, fun h => h.elim⟩, fun s φ hφ => List.mem_map.2 ⟨φ, hφ, rfl⟩⟩
    rw [simp_phis] at hφ
    obtain ⟨h1, h2⟩ := hv.phi_preds s φ hφ
    refine ⟨h1, fun p _ hp => (h2 p).2 (simp_sub hp), ?_⟩
    rintro c ⟨_, _, h3, m, h4⟩
    obtain ⟨l, hl⟩ := hreach s hs
    obtain ⟨q, h5, h6⟩ := hlo.back s m c h3 ⟨l, simp_path hl⟩ (simp_merge_loop h4)
    exact ⟨q, (h2 q).2 h5, h6⟩
  have key := Inv2.steps (A := A) (L := live fn A) (F := simplified fn A) (fn := fn) (S := S) hu
    (fun h h' m m' c k1 k2 k3 k4 => hlo.once h h' m m' c k1 k2 (simp_merge_loop k3) (simp_merge_loop k4)) hb
    (fun c => Dominates.refl c)
    (fun s d hd hg => hg.2 s (List.mem_append_left _ (by rwa [simp_phis] at hd)))
    (fun s hs => ⟨live_listed hv hs, fun hne => by
      obtain ⟨l, hl⟩ := hreach s hs
      generalize e : s :: l = l' at hl
      cases hl with
      | entry => simp at e; exact absurd e.1 hne
      | @next p b l hp hsu =>
        simp at e
        rw [← e.1] at hsu
        exact ⟨p, hc.on hp p (by simp), hsu⟩⟩)
    (by rw [simp_phis]; exact hv.entry_phis) (fun s => by rw [simp_phis]; exact hv.phi_nodup s)
    (xs := (((simplified fn A).labels.filter (· ∈ live fn A)).flatMap fun s =>
      ((simplified fn A).block s).phis.map fun φ => (s, φ.id)))
    ⟨rfl, rfl, fun _ => rfl, fun _ => rfl, simp_valid hv,
      fun x hx => (simp_closed hv.toBase).reachable.2 (hreach x hx), .refl, fun _ _ h => h⟩ h2
    (fun x hx => by
      obtain ⟨s, h1, h2⟩ := List.mem_flatMap.1 hx
      obtain ⟨φ, _, rfl⟩ := List.mem_map.1 h2
      simpa using (List.mem_filter.1 h1).2)
  intro s hs φ hφ
  refine ⟨(key.phi s hs φ hφ).1, (key.phi s hs φ hφ).2 (.inr ?_)⟩
  obtain ⟨ψ, h1, h2⟩ := List.mem_map.1 (key.ids s φ hφ)
  refine List.mem_flatMap.2 ⟨s, List.mem_filter.2 ⟨live_listed hv hs, by simpa using hs⟩, ?_⟩
  exact List.mem_map.2 ⟨ψ, h1, by rw [h2]⟩

/-! ### The whole result -/

/-- Blocks that are not live are empty, and go nowhere, or back to a header. -/
structure Shell (L : List Lab) (F G : Fn) : Prop where
  empty : ∀ b, b ∉ L → (G.block b).phis = [] ∧ (G.block b).body = [] ∧ (G.block b).merge = none
  term : ∀ b, b ∉ L → (∃ h, Cont L F h b ∧ (G.block b).term = .br h) ∨
    ((∀ h, ¬ Cont L F h b) ∧ (G.block b).term = .multi 0 [] [])

theorem Shell.succs (h : Shell L F G) {b y} (hb : b ∉ L) (hy : y ∈ G.succs b) : Cont L F y b := by
  unfold Fn.succs at hy
  rcases h.term b hb with ⟨x, h1, e⟩ | ⟨_, e⟩
  · rw [e] at hy
    simp [Term.succs] at hy
    rw [hy]; exact h1
  · rw [e] at hy; cases hy

theorem Shell.cont (h : Shell L F G) (hq : Uniq F) {b y} (hc : Cont L F y b) : y ∈ G.succs b := by
  unfold Fn.succs
  rcases h.term b hc.1 with ⟨x, h1, e⟩ | ⟨h1, _⟩
  · rw [e]
    obtain ⟨_, _, k1, m, k2⟩ := h1
    obtain ⟨_, _, k3, m', k4⟩ := hc
    simp [Term.succs, hq y x m' m b k3 k1 k4 k2]
  · exact absurd hc (h1 y)

theorem Shell.defs (h : Shell L F G) {b x} (hx : x ∈ Verif.IfConv.Spec.defs (G.block b)) : b ∈ L ∧
    x ∈ Verif.IfConv.Spec.defs ((trim L G).block b) := by
  by_cases hb : b ∈ L
  · exact ⟨hb, mem_trim_defs.2 ⟨hb, hx⟩⟩
  · obtain ⟨h1, h2, _⟩ := h.empty b hb
    simp [Verif.IfConv.Spec.defs, h1, h2] at hx

theorem Shell.reads (h : Shell L F G) {b} (hb : b ∉ L) : termReads (G.block b).term = [] := by
  rcases h.term b hb with ⟨x, _, e⟩ | ⟨_, e⟩ <;> rw [e] <;> rfl

theorem Shell.avail (h : Shell L F G) (hc : Closed L G) {x b} (ha : Avail S (trim L G) x b) : Avail S G x b := by
  rcases ha with ⟨h1, h2⟩ | ⟨D, h1, h2⟩
  · exact .inl ⟨h1, fun b' hb' => h2 b' (h.defs hb').2⟩
  · exact .inr ⟨D, (mem_trim_defs.1 h1).2, hc.dom.1 h2⟩

theorem whole (hv : Valid S (trim L G)) (hc : Closed L G) (hsh : Shell L F G) (hq : Uniq F)
    (hent : ∀ c, ¬ Cont L F G.entry c) (hlist : ∀ b ∈ L, b ∈ G.labels)
    (hcl : ∀ h c, Cont L F h c → c ∈ G.labels) (hs : ∀ b ∈ L, G.succs b = F.succs b)
    (hφ : ∀ s ∈ L, ∀ φ ∈ (G.block s).phis, Pre fn F L s φ ∧ Done S fn F L s φ)
    (hdef : ∀ b x, x ∈ Verif.IfConv.Spec.defs ((trim L G).block b) → x ∈ Verif.IfConv.Spec.defs (fn.block b))
    (hm : ∀ b, (G.block b).merge = none) : Valid S G where
  entry_phis := by
    have := hv.entry_phis
    rw [trim_block (show (trim L G).entry ∈ L from hc.entry)] at this
    exact List.map_eq_nil_iff.1 this
  entry_preds b hb := by
    by_cases hl : b ∈ L
    · exact hv.entry_preds b (mem_trim_succs.2 ⟨hl, hb⟩)
    · exact hent b (hsh.succs hl hb)
  labels b hb := by
    obtain ⟨y, hy⟩ := List.exists_mem_of_ne_nil _ hb
    by_cases hl : b ∈ L
    · exact hlist b hl
    · exact hcl y b (hsh.succs hl hy)
  phi_preds b φ h := by
    by_cases hl : b ∈ L
    · obtain ⟨h1, h2⟩ := hφ b hl φ h
      refine ⟨h1.nodup, fun p => ⟨fun hp => ?_, fun hp => ?_⟩⟩
      · rcases h2.only p hp with h | h
        · rw [hs p h.1]; exact h.2
        · exact hsh.cont hq h
      · by_cases hpl : p ∈ L
        · exact h1.live p hpl (by rwa [hs p hpl] at hp)
        · exact h2.cont p (hsh.succs hpl hp)
    · rw [(hsh.empty b hl).1] at h; cases h
  phi_nodup b := by
    by_cases hl : b ∈ L
    · have := hv.phi_nodup b
      rwa [trim_ids, if_pos hl] at this
    · rw [(hsh.empty b hl).1]; exact List.nodup_nil
  phi_avail b φ h a ha := by
    by_cases hl : b ∈ L
    · obtain ⟨h1, h2⟩ := hφ b hl φ h
      by_cases hal : a.2 ∈ L
      · have he : edge L G b a.2 = true := by
          rcases h2.only a.2 (List.mem_map.2 ⟨a, ha, rfl⟩) with h | h
          · simp only [edge, decide_eq_true_eq, hs _ hal]; exact h
          · exact absurd hal h.1
        refine hsh.avail hc (hv.phi_avail b (trimPhi L G b φ) ?_ a (List.mem_filter.2 ⟨ha, he⟩))
        rw [trim_block hl]
        exact List.mem_map.2 ⟨φ, h, rfl⟩
      · obtain ⟨h3, h4⟩ := h2.undef a ha hal
        exact .inl ⟨h3, fun b' hb' => h4 b' (hdef b' _ (hsh.defs hb').2)⟩
    · rw [(hsh.empty b hl).1] at h; cases h
  cond_avail b c t f e := by
    by_cases hl : b ∈ L
    · exact hsh.avail hc (hv.cond_avail b c t f (by rw [trim_block hl]; exact e))
    · rcases hsh.term b hl with ⟨x, _, e'⟩ | ⟨_, e'⟩ <;> rw [e'] at e <;> cases e
  listed b hb := by
    have hl : b ∉ L := fun h => hb (hlist b h)
    exact ⟨(hsh.empty b hl).1, (hsh.empty b hl).2.1, hsh.reads hl⟩
  targets b s h := by
    by_cases hl : b ∈ L
    · exact (List.mem_filter.1 (hv.targets b s (mem_trim_succs.2 ⟨hl, h⟩))).1
    · exact hlist s (hsh.succs hl h).2.1
  once d b b' h1 h2 := hv.once d b b' (hsh.defs h1).2 (hsh.defs h2).2
  nodup b := by
    by_cases hl : b ∈ L
    · have := hv.nodup b
      rwa [trim_defs, if_pos hl] at this
    · obtain ⟨h1, h2, _⟩ := hsh.empty b hl
      simp [Verif.IfConv.Spec.defs, h1, h2]
  ready b pre i post e x hx := by
    by_cases hl : b ∈ L
    · have := hv.ready b pre i post (by rw [trim_block hl]; exact e) x hx
      rw [trim_ids, if_pos hl] at this
      rcases this with h | h | ⟨h1, h2⟩ | ⟨D, h0, h1, h2⟩
      · exact .inl h
      · exact .inr (.inl h)
      · exact .inr (.inr (.inl ⟨h1, fun b' hb' => h2 b' (hsh.defs hb').2⟩))
      · exact .inr (.inr (.inr ⟨D, h0, (mem_trim_defs.1 h1).2, hc.dom.1 h2⟩))
    · rw [(hsh.empty b hl).2.1] at e; simp at e
  term b x hx := by
    by_cases hl : b ∈ L
    · exact hsh.avail hc (hv.term b x (by rw [trim_block hl]; exact hx))
    · rw [hsh.reads hl] at hx; cases hx
  header b m df e := by rw [hm] at e; cases e
  first := hlist _ hc.entry

end Verif.DeadBranch.Spec
