import Verif.BlockMerge.PhiRuns

/-!
# Lemmas: two blocks become one (C73)
-/

set_option linter.unusedSimpArgs false
set_option linter.unusedVariables false
set_option linter.unusedSectionVars false

namespace Verif.BlockMerge.Spec
open Verif.IfConv Verif.CodeSink Verif.CodeSink.Spec
open Verif.IfConv.Spec hiding Valid Right

variable {V M : Type} {S : Sem V M} {fn : Fn} {b s : Lab}

theorem ren_self : ren s b s = b := by simp [ren]
theorem ren_ne {x : Lab} (h : x ≠ s) : ren s b x = x := by simp [ren, h]

theorem ren_not (hne : b ≠ s) (x : Lab) : ren s b x ≠ s := by
  unfold ren
  split
  · exact hne
  · assumption

theorem map_ren {l : List Lab} (h : s ∉ l) : l.map (ren s b) = l := by
  induction l with
  | nil => rfl
  | cons x l ih =>
    simp only [List.mem_cons, not_or] at h
    rw [List.map_cons, ih h.2, ren_ne (Ne.symm h.1)]

theorem renTerm_id {T : Term} (h : s ∉ T.succs) : renTerm s b T = T := by
  cases T with
  | br t => simp [Term.succs] at h; simp [renTerm, ren_ne (Ne.symm h)]
  | cond c t f =>
    simp [Term.succs] at h
    simp [renTerm, ren_ne (Ne.symm h.1), ren_ne (Ne.symm h.2)]
  | multi g ops ts => simp [Term.succs] at h; simp [renTerm, map_ren h]

/-- What is known of a merge when the phis are gone. -/
structure Two (S : Sem V M) (fn : Fn) (b s : Lab) : Prop extends Only fn b s where
  valid : Valid S fn
  none : (fn.block s).phis = []

namespace Two

theorem neq (g : Two S fn b s) : b ≠ s := g.ne g.valid

theorem no_s (g : Two S fn b s) {x} (h : x ≠ b) : s ∉ fn.succs x := fun h' => h (g.pred g.valid h')

theorem term_b (g : Two S fn b s) : ((join fn b s).block b).term = (fn.block s).term := by
  simp only [join, if_neg g.neq, if_true, renBlock]
  exact renTerm_id (g.no_s (Ne.symm g.neq))

theorem term_x (g : Two S fn b s) {x} (h1 : x ≠ s) (h2 : x ≠ b) :
    ((join fn b s).block x).term = (fn.block x).term := by
  simp only [join, if_neg h1, if_neg h2, renBlock]
  exact renTerm_id (g.no_s h2)

theorem term_ren (g : Two S fn b s) {x} (h : x ≠ b) :
    ((join fn b s).block (ren s b x)).term = (fn.block x).term := by
  by_cases hx : x = s
  · subst hx; rw [ren_self]; exact g.term_b
  · rw [ren_ne hx]; exact g.term_x hx h

theorem block_s : (join fn b s).block s = ⟨[], [], .none, .multi 0 [] []⟩ := by simp [join]

theorem succs_s : (join fn b s).succs s = [] := by simp [Fn.succs, block_s, Term.succs]

theorem succs_b (g : Two S fn b s) : (join fn b s).succs b = fn.succs s := by simp only [Fn.succs, g.term_b]

theorem succs_x (g : Two S fn b s) {x} (h1 : x ≠ s) (h2 : x ≠ b) : (join fn b s).succs x = fn.succs x := by
  simp only [Fn.succs, g.term_x h1 h2]

theorem phis_x (g : Two S fn b s) {x} (h1 : x ≠ s) :
    ((join fn b s).block x).phis = (fn.block x).phis.map (renPhi s b) := by
  simp only [join, if_neg h1]
  split
  · rename_i h; rw [h]; rfl
  · rfl

theorem body_b (g : Two S fn b s) :
    ((join fn b s).block b).body = (fn.block b).body ++ (fn.block s).body := by
  simp [join, g.neq, renBlock]

theorem body_x (g : Two S fn b s) {x} (h1 : x ≠ s) (h2 : x ≠ b) :
    ((join fn b s).block x).body = (fn.block x).body := by
  simp [join, h1, h2, renBlock]

/-! ### Paths -/

theorem path_s (g : Two S fn b s) {l} (h : Path fn (s :: l)) : ∃ r, l = b :: r ∧ Path fn (b :: r) := by
  generalize e : s :: l = L at h
  cases h with
  | entry => simp at e; exact absurd e.1 (g.entry g.valid)
  | next hp hs =>
    simp at e
    obtain ⟨rfl, rfl⟩ := e
    have := g.pred g.valid hs
    subst this
    exact ⟨_, rfl, hp⟩

theorem path_to (g : Two S fn b s) {l} (h : Path fn l) : Path (join fn b s) (l.filter (· ≠ s)) := by
  induction h with
  | entry =>
    have : decide (fn.entry ≠ s) = true := by simp [Ne.symm (g.entry g.valid)]
    rw [List.filter_cons_of_pos (by exact this)]
    exact .entry (fn := join fn b s)
  | @next a y l hp hs ih =>
    by_cases hy : y = s
    · subst hy
      rw [List.filter_cons_of_neg (by simp)]
      exact ih
    · rw [List.filter_cons_of_pos (by simp [hy])]
      by_cases ha : a = s
      · subst ha
        obtain ⟨r, rfl, _⟩ := g.path_s hp
        rw [List.filter_cons_of_neg (by simp), List.filter_cons_of_pos (by simp [g.neq])] at *
        exact ih.next (by rw [g.succs_b]; exact hs)
      · rw [List.filter_cons_of_pos (by simp [ha])] at *
        have hab : a ≠ b := by
          rintro rfl
          rw [g.succs] at hs
          simp at hs
          exact hy hs
        exact ih.next (by rw [g.succs_x ha hab]; exact hs)

/-- The last block of a joined block. -/
def tip (b s x : Lab) : Lab := if x = b then s else x

theorem path_from (g : Two S fn b s) {l'} (h : Path (join fn b s) l') : ∀ y l0, l' = y :: l0 →
    ∃ l, Path fn (tip b s y :: l) ∧ (tip b s y :: l).filter (· ≠ s) = l' ∧ y ≠ s := by
  have ext : ∀ {y l l'}, Path fn (y :: l) → y ≠ s → (y :: l).filter (· ≠ s) = l' →
      ∃ r, Path fn (tip b s y :: r) ∧ (tip b s y :: r).filter (· ≠ s) = l' := by
    intro y l l' hh hy he
    by_cases hyb : y = b
    · rw [hyb] at hh he ⊢
      simp only [tip, if_true]
      refine ⟨b :: l, hh.next (by rw [g.succs]; simp), ?_⟩
      rw [List.filter_cons_of_neg (by simp)]; exact he
    · simp only [tip, if_neg hyb]
      exact ⟨l, hh, he⟩
  induction h with
  | entry =>
    intro y l0 e
    simp at e
    obtain ⟨rfl, rfl⟩ := e
    have hne := Ne.symm (g.entry g.valid)
    obtain ⟨r, h1, h2⟩ := ext (l := []) .entry hne rfl
    refine ⟨r, h1, h2.trans ?_, hne⟩
    rw [List.filter_cons_of_pos (by simpa using hne)]; rfl
  | @next a y l hp hs ih =>
    intro y' l0 e
    simp at e
    obtain ⟨rfl, rfl⟩ := e
    obtain ⟨r, h1, h2, h3⟩ := ih a l rfl
    have hs' : y ∈ fn.succs (tip b s a) := by
      by_cases hab : a = b
      · subst hab; simp only [tip, if_true]; rw [g.succs_b] at hs; exact hs
      · simp only [tip, if_neg hab]; rw [g.succs_x h3 hab] at hs; exact hs
    have hy : y ≠ s := by
      rintro rfl
      refine g.no_s (x := tip b y a) ?_ hs'
      unfold tip; split
      · exact Ne.symm g.neq
      · assumption
    obtain ⟨r', k1, k2⟩ := ext (h1.next hs') hy rfl
    refine ⟨r', k1, k2.trans ?_, hy⟩
    rw [List.filter_cons_of_pos (by simpa using hy), h2]

theorem tip_ren (g : Two S fn b s) {y} (h : y ≠ b) : tip b s (ren s b y) = y := by
  by_cases hy : y = s
  · subst hy; simp [ren, tip]
  · simp [ren, tip, hy, h]

theorem dom_ren (g : Two S fn b s) {x y} (h : Dominates fn x y) : Dominates (join fn b s) (ren s b x) (ren s b y) := by
  intro l' hl'
  obtain ⟨l, h1, h2, _⟩ := g.path_from hl' _ _ rfl
  rw [← h2]
  have hx : x ∈ tip b s (ren s b y) :: l := by
    by_cases hy : y = b
    · subst hy
      rw [ren_ne g.neq] at h1 ⊢
      simp only [tip, if_true] at h1 ⊢
      obtain ⟨r, rfl, h4⟩ := g.path_s h1
      exact List.mem_cons_of_mem _ (h r h4)
    · rw [g.tip_ren hy] at h1 ⊢
      exact h l h1
  by_cases hxs : x = s
  · subst hxs
    rw [ren_self]
    obtain ⟨u, r, e⟩ := List.append_of_mem hx
    obtain ⟨r', e', _⟩ := g.path_s (h1.suffix e)
    refine List.mem_filter.2 ⟨?_, by simpa using g.neq⟩
    rw [e, e']; simp
  · rw [ren_ne hxs]
    exact List.mem_filter.2 ⟨hx, by simpa using hxs⟩

/-! ### Definitions -/

theorem map_renPhi (φs : List Phi) : (φs.map (renPhi s b)).map Phi.id = φs.map Phi.id := by
  rw [List.map_map]
  exact List.map_congr_left fun _ _ => rfl

theorem defs_b (g : Two S fn b s) :
    defs ((join fn b s).block b) = defs (fn.block b) ++ defs (fn.block s) := by
  unfold defs
  rw [g.phis_x g.neq, g.body_b, map_renPhi, g.none]
  simp

theorem defs_x (g : Two S fn b s) {x} (h1 : x ≠ s) (h2 : x ≠ b) :
    defs ((join fn b s).block x) = defs (fn.block x) := by
  unfold defs
  rw [g.phis_x h1, g.body_x h1 h2, map_renPhi]

theorem mem_defs (g : Two S fn b s) {x y} :
    x ∈ defs ((join fn b s).block y) ↔ ∃ y0, y = ren s b y0 ∧ x ∈ defs (fn.block y0) := by
  by_cases hs : y = s
  · subst hs
    rw [block_s]
    constructor
    · intro h; simp [defs] at h
    · rintro ⟨y0, e, _⟩; exact absurd e.symm (ren_not g.neq y0)
  · by_cases hb : y = b
    · subst hb
      rw [g.defs_b, List.mem_append]
      constructor
      · rintro (h | h)
        · exact ⟨y, (ren_ne hs).symm, h⟩
        · exact ⟨s, ren_self.symm, h⟩
      · rintro ⟨y0, e, h⟩
        by_cases h0 : y0 = s
        · subst h0; exact .inr h
        · rw [ren_ne h0] at e; subst e; exact .inl h
    · rw [g.defs_x hs hb]
      constructor
      · exact fun h => ⟨y, (ren_ne hs).symm, h⟩
      · rintro ⟨y0, e, h⟩
        by_cases h0 : y0 = s
        · subst h0; rw [ren_self] at e; exact absurd e hb
        · rw [ren_ne h0] at e; subst e; exact h

theorem avail (g : Two S fn b s) {x y} (h : Avail S fn x y) : Avail S (join fn b s) x (ren s b y) := by
  rcases h with ⟨h1, h2⟩ | ⟨D, h1, h2⟩
  · refine .inl ⟨h1, fun y' hy' => ?_⟩
    obtain ⟨y0, _, h⟩ := g.mem_defs.1 hy'
    exact h2 y0 h
  · exact .inr ⟨_, g.mem_defs.2 ⟨D, rfl, h1⟩, g.dom_ren h2⟩

theorem outside (g : Two S fn b s) {x y} (h : Outside S fn x y)
    (hn : ∀ D, x ∈ defs (fn.block D) → D ≠ y → Dominates fn D y → ren s b D ≠ ren s b y) :
    Outside S (join fn b s) x (ren s b y) := by
  rcases h with ⟨h1, h2⟩ | ⟨D, h0, h1, h2⟩
  · refine .inl ⟨h1, fun y' hy' => ?_⟩
    obtain ⟨y0, _, h⟩ := g.mem_defs.1 hy'
    exact h2 y0 h
  · exact .inr ⟨_, hn D h1 h0 h2, g.mem_defs.2 ⟨D, rfl, h1⟩, g.dom_ren h2⟩

/-! ### Predecessors -/

theorem nodup_map {α β : Type} {f : α → β} : ∀ {l : List α}, (∀ x ∈ l, ∀ y ∈ l, f x = f y → x = y) → l.Nodup →
    (l.map f).Nodup
  | [], _, _ => .nil
  | x :: l, h, hn => by
    obtain ⟨h1, h2⟩ := List.nodup_cons.1 hn
    rw [List.map_cons, List.nodup_cons]
    refine ⟨fun hm => ?_, nodup_map (fun y hy z hz => h y (List.mem_cons_of_mem _ hy) z (List.mem_cons_of_mem _ hz)) h2⟩
    obtain ⟨y, hy, e⟩ := List.mem_map.1 hm
    exact h1 (h y (List.mem_cons_of_mem _ hy) x (by simp) e ▸ hy)

theorem not_b (g : Two S fn b s) {y} (hy : y ≠ s) : y ∉ fn.succs b := by
  rw [g.succs]; simpa using hy

theorem join_valid (g : Two S fn b s) : Valid S (join fn b s) where
  entry_phis := by
    show ((join fn b s).block fn.entry).phis = []
    rw [g.phis_x (Ne.symm (g.entry g.valid)), g.valid.entry_phis]; rfl
  entry_preds x := by
    show fn.entry ∉ _
    by_cases hs : x = s
    · subst hs; rw [succs_s]; simp
    · by_cases hb : x = b
      · subst hb; rw [g.succs_b]; exact g.valid.entry_preds s
      · rw [g.succs_x hs hb]; exact g.valid.entry_preds x
  labels x hx := by
    by_cases hs : x = s
    · subst hs; rw [succs_s] at hx; exact absurd rfl hx
    · refine List.mem_filter.2 ⟨?_, by simpa using hs⟩
      by_cases hb : x = b
      · subst hb; exact g.listed_b g.valid
      · rw [g.succs_x hs hb] at hx; exact g.valid.labels x hx
  phi_preds y ψ hψ := by
    by_cases hs : y = s
    · subst hs; rw [block_s] at hψ; simp at hψ
    · rw [g.phis_x hs] at hψ
      obtain ⟨φ, h1, rfl⟩ := List.mem_map.1 hψ
      obtain ⟨k1, k2⟩ := g.valid.phi_preds y φ h1
      have hm : (renPhi s b φ).args.map (·.2) = (φ.args.map (·.2)).map (ren s b) := by
        simp [renPhi, List.map_map, Function.comp_def]
      have hnb : ∀ p ∈ φ.args.map (·.2), p ≠ b := by
        rintro p hp rfl; exact g.not_b hs ((k2 p).1 hp)
      rw [hm]
      refine ⟨nodup_map (fun x hx z hz e => ?_) k1, fun p => ?_⟩
      · unfold ren at e
        by_cases e1 : x = s <;> by_cases e2 : z = s
        · rw [e1, e2]
        · rw [if_pos e1, if_neg e2] at e; exact absurd e.symm (hnb z hz)
        · rw [if_neg e1, if_pos e2] at e; exact absurd e (hnb x hx)
        · rw [if_neg e1, if_neg e2] at e; exact e
      · rw [List.mem_map]
        constructor
        · rintro ⟨x, hx, rfl⟩
          have := (k2 x).1 hx
          simp only [Fn.succs, g.term_ren (hnb x hx)]
          exact this
        · intro hp
          by_cases hps : p = s
          · subst hps; rw [succs_s] at hp; cases hp
          · by_cases hpb : p = b
            · subst hpb
              rw [g.succs_b] at hp
              exact ⟨s, (k2 s).2 hp, ren_self⟩
            · rw [g.succs_x hps hpb] at hp
              exact ⟨p, (k2 p).2 hp, ren_ne hps⟩
  phi_nodup y := by
    by_cases hs : y = s
    · subst hs; rw [block_s]; simp
    · rw [g.phis_x hs, map_renPhi]; exact g.valid.phi_nodup y
  phi_avail y ψ hψ z hz := by
    by_cases hs : y = s
    · subst hs; rw [block_s] at hψ; simp at hψ
    · rw [g.phis_x hs] at hψ
      obtain ⟨φ, h1, rfl⟩ := List.mem_map.1 hψ
      simp only [renPhi, List.mem_map] at hz
      obtain ⟨z0, h2, rfl⟩ := hz
      exact g.avail (g.valid.phi_avail y φ h1 z0 h2)
  cond_avail y c T F ht := by
    by_cases hs : y = s
    · subst hs; rw [block_s] at ht; cases ht
    · by_cases hb : y = b
      · subst hb
        rw [g.term_b] at ht
        have := g.avail (g.valid.cond_avail s c T F ht)
        rwa [ren_self] at this
      · rw [g.term_x hs hb] at ht
        have := g.avail (g.valid.cond_avail y c T F ht)
        rwa [ren_ne hs] at this
  listed x hx := by
    by_cases hs : x = s
    · subst hs; rw [block_s]; simp [termReads]
    · have hx' : x ∉ fn.labels := fun h => hx (List.mem_filter.2 ⟨h, by simpa using hs⟩)
      have hb : x ≠ b := by rintro rfl; exact hx' (g.listed_b g.valid)
      obtain ⟨h1, h2, h3⟩ := g.valid.listed x hx'
      rw [g.phis_x hs, g.body_x hs hb, g.term_x hs hb, h1, h2, h3]
      simp
  targets x y hy := by
    have key : ∀ z, z ≠ b → y ∈ fn.succs z → y ∈ (join fn b s).labels := by
      intro z hz h
      refine List.mem_filter.2 ⟨g.valid.targets z y h, ?_⟩
      have : y ≠ s := by rintro rfl; exact g.no_s hz h
      simpa using this
    by_cases hs : x = s
    · subst hs; rw [succs_s] at hy; simp at hy
    · by_cases hb : x = b
      · subst hb; rw [g.succs_b] at hy; exact key s (Ne.symm g.neq) hy
      · rw [g.succs_x hs hb] at hy; exact key x hb hy
  once x y y' h1 h2 := by
    obtain ⟨y0, rfl, k1⟩ := g.mem_defs.1 h1
    obtain ⟨y1, rfl, k2⟩ := g.mem_defs.1 h2
    rw [g.valid.once x y0 y1 k1 k2]
  nodup y := by
    by_cases hs : y = s
    · subst hs; rw [block_s]; simp [defs]
    · by_cases hb : y = b
      · subst hb
        rw [g.defs_b]
        refine List.nodup_append.2 ⟨g.valid.nodup y, g.valid.nodup s, ?_⟩
        rintro x h1 x' h2 rfl
        exact g.neq (g.valid.once x y s h1 h2)
      · rw [g.defs_x hs hb]; exact g.valid.nodup y
  ready y pre i post e x hx := by
    by_cases hs : y = s
    · subst hs; rw [block_s] at e; simp at e
    · rw [g.phis_x hs, map_renPhi]
      by_cases hb : y = b
      · subst hb
        have first : ∀ pre0 post0, (fn.block y).body = pre0 ++ i :: post0 → pre0 = pre →
            x ∈ (fn.block y).phis.map Phi.id ∨ x ∈ pre.map instId ∨ Outside S (join fn y s) x y := by
          rintro pre0 post0 e0 rfl
          rcases g.valid.ready y pre0 i post0 e0 x hx with h | h | h
          · exact .inl h
          · exact .inr (.inl h)
          · refine .inr (.inr ?_)
            have := g.outside h (fun D hD h1 h2 h3 => ?_)
            · rwa [ren_ne hs] at this
            · rw [ren_ne hs] at h3
              by_cases hDs : D = s
              · subst hDs; exact g.not_dom g.valid h2
              · rw [ren_ne hDs] at h3; exact h1 h3
        have second : ∀ pre0 post0, (fn.block s).body = pre0 ++ i :: post0 → pre = (fn.block y).body ++ pre0 →
            x ∈ (fn.block y).phis.map Phi.id ∨ x ∈ pre.map instId ∨ Outside S (join fn y s) x y := by
          rintro pre0 post0 e0 rfl
          rcases g.valid.ready s pre0 i post0 e0 x hx with h | h | h
          · rw [g.none] at h; simp at h
          · exact .inr (.inl (by rw [List.map_append]; exact List.mem_append_right _ h))
          · by_cases hxb : x ∈ defs (fn.block y)
            · rcases List.mem_append.1 hxb with h' | h'
              · exact .inl h'
              · exact .inr (.inl (by rw [List.map_append]; exact List.mem_append_left _ h'))
            · refine .inr (.inr ?_)
              have := g.outside h (fun D hD h1 h2 h3 => ?_)
              · rwa [ren_self] at this
              · rw [ren_self, ren_ne h1] at h3
                subst h3; exact hxb hD
        rw [g.body_b] at e
        rcases List.append_eq_append_iff.1 e with ⟨u, h1, h2⟩ | ⟨u, h1, h2⟩
        · exact second u post h2 h1
        · cases u with
          | nil =>
            simp at h1 h2
            exact second [] post (by simpa using h2.symm) (by simpa using h1.symm)
          | cons z u =>
            simp only [List.cons_append, List.cons.injEq] at h2
            obtain ⟨rfl, h2⟩ := h2
            exact first pre u h1 rfl
      · rw [g.body_x hs hb] at e
        rcases g.valid.ready y pre i post e x hx with h | h | h
        · exact .inl h
        · exact .inr (.inl h)
        · refine .inr (.inr ?_)
          have := g.outside h (fun D hD h1 h2 h3 => ?_)
          · rwa [ren_ne hs] at this
          · rw [ren_ne hs] at h3
            by_cases hDs : D = s
            · subst hDs; rw [ren_self] at h3; exact hb h3.symm
            · rw [ren_ne hDs] at h3; exact h1 h3
  term y x hx := by
    by_cases hs : y = s
    · subst hs; rw [block_s] at hx; simp [termReads] at hx
    · by_cases hb : y = b
      · subst hb
        rw [g.term_b] at hx
        have := g.avail (g.valid.term s x hx)
        rwa [ren_self] at this
      · rw [g.term_x hs hb] at hx
        have := g.avail (g.valid.term y x hx)
        rwa [ren_ne hs] at this
  header y m df hm := by
    have lab : ∀ m0, m0 ∈ fn.labels → ren s b m0 ∈ (join fn b s).labels := by
      intro m0 h
      refine List.mem_filter.2 ⟨?_, by simpa using ren_not g.neq m0⟩
      by_cases h0 : m0 = s
      · subst h0; rw [ren_self]; exact g.listed_b g.valid
      · rw [ren_ne h0]; exact h
    have inv : ∀ (o : Option Merge), o.map (renMerge s b) = some (.selection m df) →
        ∃ m0, o = some (.selection m0 df) ∧ m = ren s b m0 := by
      intro o h
      cases o with
      | none => cases h
      | some M =>
        cases M with
        | loop _ _ => simp [renMerge] at h
        | selection m0 df0 =>
          simp [renMerge] at h
          obtain ⟨rfl, rfl⟩ := h
          exact ⟨m0, rfl, rfl⟩
    by_cases hs : y = s
    · subst hs; rw [block_s] at hm; cases hm
    · by_cases hb : y = b
      · subst hb
        simp only [join, if_neg hs, if_true, renBlock] at hm
        obtain ⟨m0, h1, rfl⟩ := inv _ hm
        have ofs : (fn.block s).merge = some (.selection m0 df) → Dominates (join fn y s) y (ren s y m0) ∧
            ren s y m0 ≠ y ∧ ren s y m0 ∈ (join fn y s).labels := by
          intro h
          obtain ⟨k1, k2, k3⟩ := g.valid.header s m0 df h
          have := g.dom_ren k1
          rw [ren_self] at this
          refine ⟨this, ?_, lab m0 k3⟩
          rw [ren_ne k2]
          rintro rfl
          exact g.not_dom g.valid k1
        unfold keptMerge at h1
        split at h1
        · rename_i M hM
          split at h1
          · exact ofs h1
          · rename_i hne
            cases h1
            obtain ⟨k1, k2, k3⟩ := g.valid.header y m0 df hM
            have := g.dom_ren k1
            rw [ren_ne hs] at this
            refine ⟨this, ?_, lab m0 k3⟩
            have hms : m0 ≠ s := hne
            rw [ren_ne hms]; exact k2
        · exact ofs h1
      · simp only [join, if_neg hs, if_neg hb, renBlock] at hm
        obtain ⟨m0, h1, rfl⟩ := inv _ hm
        obtain ⟨k1, k2, k3⟩ := g.valid.header y m0 df h1
        have := g.dom_ren k1
        rw [ren_ne hs] at this
        refine ⟨this, ?_, lab m0 k3⟩
        by_cases hms : m0 = s
        · subst hms; rw [ren_self]; exact Ne.symm hb
        · rw [ren_ne hms]; exact k2
  first := List.mem_filter.2 ⟨g.valid.first, decide_eq_true (Ne.symm (g.entry g.valid))⟩

end Two

end Verif.BlockMerge.Spec
