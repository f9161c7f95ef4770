import Verif.DeadBranch.Terms

/-!
# Lemmas: the live part of a function (C74)
-/

set_option linter.unusedSimpArgs false
set_option linter.unusedVariables false
set_option linter.unusedSectionVars false

namespace Verif.DeadBranch.Spec
open Verif.IfConv Verif.CodeSink Verif.CodeSink.Spec
open Verif.IfConv.Spec hiding Valid Right

variable {V M : Type} {S : Sem V M} {num : V → Nat} {fn F : Fn} {A : Info} {L : List Lab}

/-- The edge from `p` to `s` is live. -/
def edge (L : List Lab) (F : Fn) (s p : Lab) : Bool := decide (p ∈ L ∧ s ∈ F.succs p)

def trimPhi (L : List Lab) (F : Fn) (s : Lab) (φ : Phi) : Phi :=
  { φ with args := φ.args.filter fun x => edge L F s x.2 }

/-- The live part. -/
def trim (L : List Lab) (F : Fn) : Fn where
  entry := F.entry
  labels := F.labels.filter (· ∈ L)
  block x := if x ∈ L then ⟨(F.block x).phis.map (trimPhi L F x), (F.block x).body, none, (F.block x).term⟩
    else ⟨[], [], none, .multi 0 [] []⟩

/-- Live blocks lead to live blocks. -/
structure Closed (L : List Lab) (F : Fn) : Prop where
  entry : F.entry ∈ L
  next : ∀ x ∈ L, ∀ y ∈ F.succs x, y ∈ L

theorem trim_block {x} (h : x ∈ L) : (trim L F).block x =
    ⟨(F.block x).phis.map (trimPhi L F x), (F.block x).body, none, (F.block x).term⟩ := by
  simp only [trim, if_pos h]

theorem trim_off {x} (h : x ∉ L) : (trim L F).block x = ⟨[], [], none, .multi 0 [] []⟩ := by
  simp only [trim, if_neg h]

theorem trim_succs {x} (h : x ∈ L) : (trim L F).succs x = F.succs x := by
  simp only [Fn.succs, trim_block h]

theorem mem_trim_succs {x y} : y ∈ (trim L F).succs x ↔ x ∈ L ∧ y ∈ F.succs x := by
  by_cases h : x ∈ L
  · rw [trim_succs h]; simp [h]
  · simp [Fn.succs, trim_off h, Term.succs, h]

theorem trim_ids (x : Lab) : ((trim L F).block x).phis.map Phi.id = if x ∈ L then (F.block x).phis.map Phi.id else [] := by
  split
  · rename_i h
    rw [trim_block h]
    simp only [List.map_map]
    exact List.map_congr_left fun _ _ => rfl
  · rename_i h; rw [trim_off h]; rfl

theorem trim_defs (x : Lab) : defs ((trim L F).block x) = if x ∈ L then defs (F.block x) else [] := by
  unfold defs
  have h1 := trim_ids (L := L) (F := F) x
  split
  · rename_i h
    rw [if_pos h] at h1
    rw [h1, trim_block h]
  · rename_i h; rw [trim_off h]; rfl

theorem mem_trim_defs {x d} : d ∈ defs ((trim L F).block x) ↔ x ∈ L ∧ d ∈ defs (F.block x) := by
  rw [trim_defs]
  split
  · rename_i h; simp [h]
  · rename_i h; simp [h]

theorem Closed.path (h : Closed L F) {l} : Path (trim L F) l ↔ Path F l := by
  have key : ∀ {l}, Path F l → (∀ x ∈ l, x ∈ L) := by
    intro l hp
    induction hp with
    | entry => intro x hx; simp at hx; rw [hx]; exact h.entry
    | next _ hs ih =>
      intro x hx
      rcases List.mem_cons.1 hx with rfl | hx
      · exact h.next _ (ih _ (by simp)) _ hs
      · exact ih x hx
  constructor
  · intro hp
    induction hp with
    | entry => exact .entry
    | next _ hs ih => exact ih.next (mem_trim_succs.1 hs).2
  · intro hp
    induction hp with
    | entry => exact .entry (fn := trim L F)
    | next hp hs ih => exact ih.next (mem_trim_succs.2 ⟨key hp _ (by simp), hs⟩)

theorem Closed.on (h : Closed L F) {l} (hp : Path F l) : ∀ x ∈ l, x ∈ L := by
  induction hp with
  | entry => intro x hx; simp at hx; rw [hx]; exact h.entry
  | next _ hs ih =>
    intro x hx
    rcases List.mem_cons.1 hx with rfl | hx
    · exact h.next _ (ih _ (by simp)) _ hs
    · exact ih x hx

theorem Closed.dom (h : Closed L F) {a b} : Dominates (trim L F) a b ↔ Dominates F a b := by
  unfold Dominates
  simp only [h.path]

theorem Closed.reachable (h : Closed L F) {b} : Reachable (trim L F) b ↔ Reachable F b := by
  unfold Reachable
  simp only [h.path]

/-! ### Runs -/

theorem find_filter {α} {p q : α → Bool} : ∀ {l : List α}, (∀ x ∈ l, p x = true → q x = true) →
    (l.filter q).find? p = l.find? p
  | [], _ => rfl
  | x :: l, h => by
    have ih := find_filter (l := l) (fun y hy => h y (List.mem_cons_of_mem _ hy))
    by_cases hp : p x = true
    · rw [List.filter_cons_of_pos (h x (by simp) hp), List.find?_cons_of_pos hp, List.find?_cons_of_pos hp]
    · rw [List.find?_cons_of_neg hp]
      by_cases hq : q x = true
      · rw [List.filter_cons_of_pos hq, List.find?_cons_of_neg hp, ih]
      · rw [List.filter_cons_of_neg hq, ih]

theorem trim_phiVal {s p : Lab} (hp : p ∈ L) (hs : s ∈ F.succs p) (e : Env V) (φ : Phi) :
    phiVal e p (trimPhi L F s φ) = phiVal e p φ := by
  unfold phiVal
  have : (trimPhi L F s φ).args.find? (fun x => decide (x.2 = p)) = φ.args.find? (fun x => decide (x.2 = p)) := by
    refine find_filter fun x _ hx => ?_
    have hx : x.2 = p := by simpa using hx
    simp [edge, hx, hp, hs]
  rw [this]

theorem trim_phiEnv {s p : Lab} (hsl : s ∈ L) (hp : p ∈ L) (hs : s ∈ F.succs p) (e : Env V) :
    phiEnv e p ((trim L F).block s).phis = phiEnv e p (F.block s).phis := by
  funext d
  rw [trim_block hsl]
  unfold phiEnv
  have : ((F.block s).phis.map (trimPhi L F s)).find? (fun φ => decide (φ.id = d)) =
      ((F.block s).phis.find? (fun φ => decide (φ.id = d))).map (trimPhi L F s) := by
    rw [List.find?_map]; rfl
  simp only [this]
  cases (F.block s).phis.find? (fun φ => decide (φ.id = d)) with
  | none => rfl
  | some φ => exact trim_phiVal hp hs e φ

theorem Closed.runs (h : Closed L F) {l} {c : Config V M} :
    (Reach S (trim L F) l c ↔ Reach S F l c) ∧ (Reach S F l c → c.block ∈ L) := by
  have hin : ∀ {l} {c : Config V M}, Reach S F l c → c.block ∈ L := by
    intro l c hr
    obtain ⟨hp, l', rfl⟩ := hr.path
    exact h.on hp _ (by simp)
  refine ⟨⟨fun hr => ?_, fun hr => ?_⟩, hin⟩
  · induction hr with
    | @start c hb =>
      have h2 : Exec S ((trim L F).block F.entry).body S.start S.mem c.env c.mem := hb.2
      rw [trim_block h.entry] at h2
      exact .start (fn := F) ⟨hb.1, h2⟩
    | @step l c c' hr hs ih =>
      cases hs with
      | @mk p e m y e' m' hg hφ hx =>
        have hp : p ∈ L := hin ih
        rw [trim_block hp] at hg
        have hy := h.next p hp y hg.succ
        rw [trim_phiEnv hy hp hg.succ] at hx
        rw [trim_block hy] at hφ hx
        refine .step (c' := ⟨y, e', m'⟩) ih (.mk hg (fun φ hm => ?_) hx)
        have := hφ (trimPhi L F y φ) (List.mem_map.2 ⟨φ, hm, rfl⟩)
        rwa [trim_phiVal hp hg.succ] at this
  · induction hr with
    | @start c hb =>
      refine .start (fn := trim L F) ⟨hb.1, ?_⟩
      show Exec S ((trim L F).block F.entry).body S.start S.mem c.env c.mem
      rw [trim_block h.entry]
      exact hb.2
    | @step l c c' hr hs ih =>
      have hp := hin hr
      cases hs with
      | @mk p e m y e' m' hg hφ hx =>
        have hy := h.next p hp y hg.succ
        refine .step (c' := ⟨y, e', m'⟩) ih (.mk ?_ ?_ ?_)
        · rw [trim_block hp]; exact hg
        · rw [trim_block hy]
          intro φ hm
          obtain ⟨φ', hm', rfl⟩ := List.mem_map.1 hm
          rw [trim_phiVal hp hg.succ]
          exact hφ φ' hm'
        · rw [trim_phiEnv hy hp hg.succ, trim_block hy]
          exact hx

/-! ### The live part of the function with its new terminators is valid -/

theorem simp_closed (hv : Valid S fn) : Closed (live fn A) (simplified fn A) := by
  obtain ⟨h1, h2, _⟩ := live_iff (A := A) hv.labels
  exact ⟨h1, fun x hx y hy => h2 x hx y (by rwa [simp_succs, if_pos hx] at hy)⟩

theorem simp_defs (b : Lab) : defs ((simplified fn A).block b) = defs (fn.block b) := by
  unfold defs; rw [simp_phis, simp_body]

theorem simp_sub {x y} (h : y ∈ (simplified fn A).succs x) : y ∈ fn.succs x := by
  rw [simp_succs] at h
  split at h
  · exact next_succ h
  · exact h

theorem simp_path {l} (h : Path (simplified fn A) l) : Path fn l := by
  induction h with
  | entry => exact .entry
  | next _ hs ih => exact ih.next (simp_sub hs)

/-- A block that dominates a live block is live, and dominates it still. -/
theorem simp_dom (hv : Valid S fn) {a b} (hb : b ∈ live fn A) (h : Dominates fn a b) :
    a ∈ live fn A ∧ Dominates (trim (live fn A) (simplified fn A)) a b := by
  have hc := simp_closed (A := A) hv
  refine ⟨?_, hc.dom.2 fun l hp => h l (simp_path hp)⟩
  obtain ⟨l, hp⟩ := (live_iff (A := A) hv.labels).2.2 b hb
  exact hc.on hp a (h l (simp_path hp))

theorem newTerm_reads {b x} (h : x ∈ termReads (newTerm fn A b)) : x ∈ termReads (fn.block b).term := by
  unfold newTerm at h
  split at h
  · exact h
  · split at h
    · rename_i e
      rw [e]
      split at h
      · simpa [termReads] using h
      · simp [termReads] at h
    · simp [termReads] at h

theorem newTerm_cond {b c t f} (h : newTerm fn A b = .cond c t f) : (fn.block b).term = .cond c t f := by
  unfold newTerm at h
  split at h
  · exact h
  · split at h
    · split at h <;> cases h
    · cases h

theorem simp_avail (hv : Valid S fn) {x b} (hb : b ∈ live fn A) (h : Avail S fn x b) :
    Avail S (trim (live fn A) (simplified fn A)) x b := by
  rcases h with ⟨h1, h2⟩ | ⟨D, h1, h2⟩
  · refine .inl ⟨h1, fun b' hb' => h2 b' ?_⟩
    have := (mem_trim_defs.1 hb').2
    rwa [simp_defs] at this
  · obtain ⟨h3, h4⟩ := simp_dom hv hb h2
    exact .inr ⟨D, mem_trim_defs.2 ⟨h3, by rwa [simp_defs]⟩, h4⟩

theorem live_listed (hv : BlockMerge.Spec.Valid S fn) {x} (h : x ∈ live fn A) : x ∈ fn.labels := by
  obtain ⟨l, hp⟩ := (live_iff (A := A) hv.labels).2.2 x h
  have hp := simp_path hp
  generalize e : x :: l = l' at hp
  cases hp with
  | entry => simp at e; rw [e.1]; exact hv.first
  | next _ hs => simp at e; rw [e.1]; exact hv.targets _ _ hs

theorem simp_valid (hv : BlockMerge.Spec.Valid S fn) :
    BlockMerge.Spec.Valid S (trim (live fn A) (simplified fn A)) where
  entry_phis := by
    show ((trim (live fn A) (simplified fn A)).block fn.entry).phis = []
    rw [trim_block (show fn.entry ∈ live fn A from (simp_closed hv.toBase).entry)]
    simp only [simp_phis]
    show (fn.block fn.entry).phis.map _ = []
    rw [hv.entry_phis]; rfl
  entry_preds b hb := hv.entry_preds b (simp_sub (mem_trim_succs.1 hb).2)
  labels b hb := by
    obtain ⟨y, hy⟩ := List.exists_mem_of_ne_nil _ hb
    obtain ⟨h1, h2⟩ := mem_trim_succs.1 hy
    refine List.mem_filter.2 ⟨hv.labels b (fun e => ?_), by simpa using h1⟩
    have := simp_sub h2
    rw [e] at this; cases this
  phi_preds b φ hφ := by
    by_cases hb : b ∈ live fn A
    · rw [trim_block hb] at hφ
      simp only [simp_phis] at hφ
      obtain ⟨ψ, h1, rfl⟩ := List.mem_map.1 hφ
      obtain ⟨h2, h3⟩ := hv.phi_preds b ψ h1
      have hm : (trimPhi (live fn A) (simplified fn A) b ψ).args.map (·.2) =
          (ψ.args.map (·.2)).filter (edge (live fn A) (simplified fn A) b) := by
        simp only [trimPhi, List.filter_map, Function.comp_def]
      rw [hm]
      refine ⟨h2.filter _, fun p => ?_⟩
      rw [List.mem_filter, mem_trim_succs, h3]
      simp only [edge, decide_eq_true_eq]
      exact ⟨fun h => h.2, fun h => ⟨simp_sub h.2, h⟩⟩
    · rw [trim_off hb] at hφ; cases hφ
  phi_nodup b := by
    rw [trim_ids]
    split
    · rw [simp_phis]; exact hv.phi_nodup b
    · exact List.nodup_nil
  phi_avail b φ hφ a ha := by
    by_cases hb : b ∈ live fn A
    · rw [trim_block hb] at hφ
      simp only [simp_phis] at hφ
      obtain ⟨ψ, h1, rfl⟩ := List.mem_map.1 hφ
      obtain ⟨h2, h3⟩ := List.mem_filter.1 ha
      simp only [edge, decide_eq_true_eq] at h3
      exact simp_avail hv.toBase h3.1 (hv.phi_avail b ψ h1 a h2)
    · rw [trim_off hb] at hφ; cases hφ
  cond_avail b c t f e := by
    by_cases hb : b ∈ live fn A
    · rw [trim_block hb] at e
      simp only [simp_term hb] at e
      exact simp_avail hv.toBase hb (hv.cond_avail b c t f (newTerm_cond e))
    · rw [trim_off hb] at e; cases e
  listed b hb := by
    by_cases hl : b ∈ live fn A
    · exact absurd (List.mem_filter.2 ⟨live_listed hv hl, by simpa using hl⟩) hb
    · rw [trim_off hl]; exact ⟨rfl, rfl, rfl⟩
  targets b s hs := by
    obtain ⟨h1, h2⟩ := mem_trim_succs.1 hs
    exact List.mem_filter.2 ⟨hv.targets b s (simp_sub h2), by simpa using (simp_closed hv.toBase).next b h1 s h2⟩
  once d b b' h1 h2 := by
    have h1 := (mem_trim_defs.1 h1).2
    have h2 := (mem_trim_defs.1 h2).2
    rw [simp_defs] at h1 h2
    exact hv.once d b b' h1 h2
  nodup b := by
    rw [trim_defs]
    split
    · rw [simp_defs]; exact hv.nodup b
    · exact List.nodup_nil
  ready b pre i post e x hx := by
    by_cases hb : b ∈ live fn A
    · rw [trim_block hb] at e
      simp only [simp_body] at e
      rw [trim_ids, if_pos hb, simp_phis]
      rcases hv.ready b pre i post e x hx with h | h | ⟨h1, h2⟩ | ⟨D, h0, h1, h2⟩
      · exact .inl h
      · exact .inr (.inl h)
      · refine .inr (.inr (.inl ⟨h1, fun b' hb' => h2 b' ?_⟩))
        have := (mem_trim_defs.1 hb').2
        rwa [simp_defs] at this
      · obtain ⟨h3, h4⟩ := simp_dom hv.toBase hb h2
        exact .inr (.inr (.inr ⟨D, h0, mem_trim_defs.2 ⟨h3, by rwa [simp_defs]⟩, h4⟩))
    · rw [trim_off hb] at e; simp at e
  term b x hx := by
    by_cases hb : b ∈ live fn A
    · rw [trim_block hb] at hx
      simp only [simp_term hb] at hx
      exact simp_avail hv.toBase hb (hv.term b x (newTerm_reads hx))
    · rw [trim_off hb] at hx; cases hx
  header b m df e := by
    by_cases hb : b ∈ live fn A
    · rw [trim_block hb] at e; cases e
    · rw [trim_off hb] at e; cases e
  first := List.mem_filter.2 ⟨hv.first, decide_eq_true (show fn.entry ∈ live fn A from (simp_closed hv.toBase).entry)⟩

end Verif.DeadBranch.Spec
