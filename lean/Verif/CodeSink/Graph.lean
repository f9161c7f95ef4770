import Verif.CodeSink.Spec
import Verif.IfConv.Runs

/-!
# Lemmas: the search for a block (C71)
-/

set_option linter.unusedSimpArgs false
set_option linter.unusedVariables false
set_option linter.unusedSectionVars false

namespace Verif.CodeSink.Spec
open Verif.IfConv Verif.IfConv.Spec

variable {V M : Type} {S : Sem V M} {fn : Fn}

theorem push_spec : ∀ (ss work done : List Lab),
    (∀ x, x ∈ (push ss work done).1 → x ∈ work ∨ x ∈ ss) ∧
    (∀ x, x ∈ work → x ∈ (push ss work done).1) ∧
    (∀ x, x ∈ (push ss work done).2 ↔ x ∈ done ∨ x ∈ ss) ∧
    (∀ x, x ∈ (push ss work done).2 → x ∈ done ∨ x ∈ (push ss work done).1)
  | [], work, done => by simp [push]; exact fun x h => .inl h
  | s :: ss, work, done => by
    unfold push
    split
    · rename_i hs
      obtain ⟨h1, h2, h3, h4⟩ := push_spec ss work done
      refine ⟨fun x hx => (h1 x hx).imp id (List.mem_cons_of_mem _), h2, fun x => ?_, h4⟩
      rw [h3]
      simp only [List.mem_cons]
      constructor
      · rintro (h | h)
        · exact .inl h
        · exact .inr (.inr h)
      · rintro (h | rfl | h)
        · exact .inl h
        · exact .inl hs
        · exact .inr h
    · rename_i hs
      obtain ⟨h1, h2, h3, h4⟩ := push_spec ss (s :: work) (s :: done)
      refine ⟨fun x hx => ?_, fun x hx => h2 x (List.mem_cons_of_mem _ hx), fun x => ?_, fun x hx => ?_⟩
      · rcases h1 x hx with h | h
        · rcases List.mem_cons.1 h with rfl | h
          · exact .inr List.mem_cons_self
          · exact .inl h
        · exact .inr (List.mem_cons_of_mem _ h)
      · rw [h3]
        simp only [List.mem_cons]
        constructor
        · rintro ((h | h) | h)
          · exact .inr (.inl h)
          · exact .inl h
          · exact .inr (.inr h)
        · rintro (h | h | h)
          · exact .inl (.inr h)
          · exact .inl (.inl h)
          · exact .inr h
      · rcases h4 x hx with h | h
        · rcases List.mem_cons.1 h with rfl | h
          · exact .inr (h2 _ List.mem_cons_self)
          · exact .inl h
        · exact .inr h

/-- The blocks seen are left only through `stop`. -/
theorem intersectsLoop_closed {stop : Lab} {set : List Lab} : ∀ (n : Nat) (work done : List Lab),
    (∀ b ∈ done, b ∉ work → b = stop ∨ (b ∉ set ∧ ∀ s ∈ fn.succs b, s ∈ done)) →
    intersectsLoop fn stop set n work done = some false →
    ∃ C : List Lab, (∀ b ∈ done, b ∈ C) ∧
      ∀ b ∈ C, b = stop ∨ (b ∉ set ∧ ∀ s ∈ fn.succs b, s ∈ C)
  | n, [], done, hi, _ => ⟨done, fun _ h => h, fun b hb => hi b hb (by simp)⟩
  | 0, b :: work, done, _, h => by simp [intersectsLoop] at h
  | n + 1, b :: work, done, hi, h => by
    unfold intersectsLoop at h
    split at h
    · rename_i hb
      refine intersectsLoop_closed n work done ?_ h
      intro x hx hw
      by_cases hxb : x = b
      · exact .inl (hxb.trans hb)
      · exact hi x hx (by simp [hxb, hw])
    · split at h
      · cases h
      · rename_i hb hs
        obtain ⟨h1, h2, h3, h4⟩ := push_spec (fn.succs b) work done
        obtain ⟨C, c1, c2⟩ := intersectsLoop_closed n _ _ (by
          intro x hx hw
          by_cases hxb : x = b
          · subst hxb
            exact .inr ⟨hs, fun s hs' => (h3 s).2 (.inr hs')⟩
          · rcases h4 x hx with hd | hd
            · rcases hi x hd (by
                intro hm
                rcases List.mem_cons.1 hm with e | hm
                · exact hxb e
                · exact hw (h2 x hm)) with h | h
              · exact .inl h
              · exact .inr ⟨h.1, fun s hs' => (h3 s).2 (.inl (h.2 s hs'))⟩
            · exact absurd hd hw) h
        exact ⟨C, fun x hx => c1 x ((h3 x).2 (.inl hx)), c2⟩

/-- `IntersectsPath` says no: all walks to the set go through `stop`. -/
theorem intersects_false {start stop : Lab} {set : List Lab}
    (h : intersects fn start stop set = some false) {u w} (hw : Walk fn start u w) (hu : u ∈ set) :
    stop ∈ w := by
  obtain ⟨C, h1, h2⟩ := intersectsLoop_closed _ _ _ (by
    intro b hb hn
    exact absurd hb hn) h
  have hC : stop ∈ w ∨ u ∈ C := by
    clear hu
    induction hw with
    | nil => exact .inr (h1 start (by simp))
    | @next b c l hw hs ih =>
      rcases ih with ih | ih
      · exact .inl (List.mem_cons_of_mem _ ih)
      · rcases h2 b ih with e | e
        · subst e; exact .inl (List.mem_cons_of_mem _ hw.end_mem)
        · exact .inr (e.2 _ hs)
  rcases hC with h | h
  · exact h
  · rcases h2 u h with e | e
    · subst e; exact hw.end_mem
    · exact absurd hu e.1

/-- Blocks of the function that have not been seen. -/
def fresh (fn : Fn) (done : List Lab) : List Lab := fn.labels.filter fun b => decide (b ∉ done)

theorem fresh_cons {s : Lab} {done : List Lab} (h : s ∉ done) (hl : s ∈ fn.labels) :
    (fresh fn (s :: done)).length < (fresh fn done).length := by
  unfold fresh
  generalize fn.labels = L at hl
  have hmono : ∀ L : List Lab, (L.filter fun b => decide (b ∉ s :: done)).length ≤
      (L.filter fun b => decide (b ∉ done)).length := by
    intro L
    induction L with
    | nil => simp
    | cons a L ih =>
      by_cases h1 : a ∉ s :: done
      · have h2 : a ∉ done := fun h => h1 (List.mem_cons_of_mem _ h)
        rw [List.filter_cons_of_pos (by simpa using h1), List.filter_cons_of_pos (by simpa using h2)]
        simpa using ih
      · rw [List.filter_cons_of_neg (by simpa using h1)]
        by_cases h2 : a ∉ done
        · rw [List.filter_cons_of_pos (by simpa using h2)]
          exact Nat.le_succ_of_le ih
        · rw [List.filter_cons_of_neg (by simpa using h2)]
          exact ih
  induction L with
  | nil => simp at hl
  | cons a L ih =>
    by_cases e : a = s
    · subst e
      rw [List.filter_cons_of_neg (by simp), List.filter_cons_of_pos (by simpa using h)]
      exact Nat.lt_succ_of_le (hmono L)
    · have hl' : s ∈ L := by simpa [Ne.symm e] using hl
      have := ih hl'
      by_cases h2 : a ∉ done
      · rw [List.filter_cons_of_pos (by simpa [e] using h2), List.filter_cons_of_pos (by simpa using h2)]
        simpa using this
      · rw [List.filter_cons_of_neg (by simp [e]; simpa using h2),
          List.filter_cons_of_neg (by simpa using h2)]
        exact this

theorem push_count : ∀ (ss work done : List Lab), (∀ s ∈ ss, s ∈ fn.labels) →
    (push ss work done).1.length + (fresh fn (push ss work done).2).length ≤
      work.length + (fresh fn done).length
  | [], work, done, _ => by simp [push]
  | s :: ss, work, done, h => by
    unfold push
    split
    · exact push_count ss work done (fun x hx => h x (List.mem_cons_of_mem _ hx))
    · rename_i hs
      have h1 := push_count ss (s :: work) (s :: done) (fun x hx => h x (List.mem_cons_of_mem _ hx))
      have h2 := fresh_cons hs (h s List.mem_cons_self)
      simp only [List.length_cons] at h1
      omega

theorem intersectsLoop_ends (ht : ∀ b, ∀ s ∈ fn.succs b, s ∈ fn.labels) {stop : Lab} {set : List Lab} :
    ∀ (n : Nat) (work done : List Lab), work.length + (fresh fn done).length ≤ n →
      ∃ r, intersectsLoop fn stop set n work done = some r
  | n, [], done, _ => ⟨false, by unfold intersectsLoop; cases n <;> rfl⟩
  | 0, b :: work, done, h => by simp at h
  | n + 1, b :: work, done, h => by
    unfold intersectsLoop
    simp only [List.length_cons] at h
    split
    · exact intersectsLoop_ends ht n work done (by omega)
    · split
      · exact ⟨true, rfl⟩
      · have := push_count (fn.succs b) work done (ht b)
        exact intersectsLoop_ends ht n _ _ (by omega)

/-- `IntersectsPath` ends. -/
theorem intersects_ends (ht : ∀ b, ∀ s ∈ fn.succs b, s ∈ fn.labels) (start stop : Lab) (set : List Lab) :
    ∃ r, intersects fn start stop set = some r := by
  refine intersectsLoop_ends ht _ _ _ ?_
  have : (fresh fn [start]).length ≤ fn.labels.length := by
    unfold fresh; exact List.length_filter_le _ _
  simp only [List.length_cons, List.length_nil]
  omega

theorem hits_ends (ht : ∀ b, ∀ s ∈ fn.succs b, s ∈ fn.labels) (m : Lab) (uses : List Lab) :
    ∀ ss, ∃ r, hits fn m uses ss = some r
  | [] => ⟨[], rfl⟩
  | s :: ss => by
    obtain ⟨r, hr⟩ := intersects_ends ht s m uses
    obtain ⟨hs, hh⟩ := hits_ends ht m uses ss
    unfold hits
    rw [hr, hh]
    cases r <;> exact ⟨_, rfl⟩

/-- What is not a hit reaches uses only through the merge block. -/
theorem hits_not {m : Lab} {uses : List Lab} : ∀ {ss hs}, hits fn m uses ss = some hs →
    ∀ s ∈ ss, s ∉ hs → ∀ u w, Walk fn s u w → u ∈ uses → m ∈ w
  | [], hs, h, s, hm, _ => by simp at hm
  | a :: ss, hs, h, s, hm, hn => by
    unfold hits at h
    split at h
    · rename_i hs' h1 h2
      cases h
      have hsa : s ≠ a := fun e => hn (by simp [e])
      rcases List.mem_cons.1 hm with e | hm
      · exact absurd e hsa
      · exact hits_not h2 s hm (fun h => hn (List.mem_cons_of_mem _ h))
    · rename_i hs' h1 h2
      cases h
      rcases List.mem_cons.1 hm with rfl | hm
      · exact fun u w hw hu => intersects_false h1 hw hu
      · exact hits_not h2 s hm hn
    · cases h

theorem hits_sub {m : Lab} {uses : List Lab} : ∀ {ss hs}, hits fn m uses ss = some hs → ∀ s ∈ hs, s ∈ ss
  | [], hs, h, s, hm => by simp [hits] at h; subst h; simp at hm
  | a :: ss, hs, h, s, hm => by
    unfold hits at h
    split at h
    · rename_i hs' h1 h2
      cases h
      rcases List.mem_cons.1 hm with rfl | hm
      · exact List.mem_cons_self
      · exact List.mem_cons_of_mem _ (hits_sub h2 s hm)
    · rename_i hs' h1 h2
      cases h
      exact List.mem_cons_of_mem _ (hits_sub h2 s hm)
    · cases h

theorem single_pred (hv : Valid S fn) {b s : Lab} (hs : s ∈ fn.succs b) (h : (fn.preds s).length = 1) :
    ∀ p, s ∈ fn.succs p → p = b := by
  intro p hp
  have h1 := (mem_preds hv.toValid).2 hs
  have h2 := (mem_preds hv.toValid).2 hp
  match e : fn.preds s with
  | [] => simp [e] at h
  | [a] => rw [e] at h1 h2; simp at h1 h2; rw [h1, h2]
  | _ :: _ :: _ => simp [e] at h

theorem dom_of_single (hv : Valid S fn) {b s : Lab} (hs : s ∈ fn.succs b) (h : ∀ p, s ∈ fn.succs p → p = b) :
    Dominates fn b s := by
  intro l hp
  cases hp with
  | entry => exact absurd hs (hv.entry_preds b)
  | next hp' hs' => rw [h _ hs']; simp

/-- One round keeps to blocks that dominate all uses. -/
theorem next_go (hv : Valid S fn) {uses : List Lab} {orig bb b : Lab} (ho : Dominates fn orig bb)
    (hu : ∀ u ∈ uses, Dominates fn bb u) (h : next fn uses orig bb = some (.go b)) :
    Dominates fn bb b ∧ (∀ u ∈ uses, Dominates fn b u) ∧
      (Reachable fn bb → b ≠ bb ∧ (Reachable fn b ∨ ∃ m df, (fn.block bb).merge = some (.selection m df) ∧ b = m))
      ∧ b ∈ fn.labels := by
  unfold next at h
  split at h
  · cases h
  · rename_i hnu
    have key : ∀ u ∈ uses, ∀ l, Path fn (u :: l) → ∃ x w rest, u :: l = w ++ bb :: rest ∧ x ∈ fn.succs bb ∧
        Walk fn x u w ∧ bb ∉ w := by
      intro u hu' l hp
      rcases hp.last bb rfl (hu u hu' l hp) with e | h
      · subst e; exact absurd hu' hnu
      · exact h
    have self : ∀ s, s ∈ fn.succs bb → (∀ p, s ∈ fn.succs p → p = bb) → Reachable fn bb → s ≠ bb := by
      rintro s hs h1 ⟨l, hl⟩ rfl
      obtain ⟨l', hp, hn⟩ := hl.first s (by simp)
      cases hp with
      | entry => exact hv.entry_preds _ hs
      | next hp' hs' => have := h1 _ hs'; subst this; simp at hn
    split at h
    · rename_i s ht
      split at h
      · rename_i hp
        cases h
        have hs : b ∈ fn.succs bb := by simp [Fn.succs, ht, Term.succs]
        have h1 := single_pred hv hs hp
        refine ⟨dom_of_single hv hs h1, ?_, fun hr => ⟨self b hs h1 hr, .inl ?_⟩, hv.targets _ _ hs⟩
        · intro u hu' l hp'
          obtain ⟨x, w, rest, e, hx, hw, _⟩ := key u hu' l hp'
          have : x = b := by simpa [Fn.succs, ht, Term.succs] using hx
          subst this
          rw [e]; exact List.mem_append_left _ hw.start_mem
        · obtain ⟨l, hl⟩ := hr; exact ⟨_, hl.next hs⟩
      · cases h
    · split at h
      · rename_i m df hm
        split at h
        · cases h
        · rename_i hh
          cases h
          refine ⟨(hv.header _ _ _ hm).1, ?_, fun _ => ⟨(hv.header _ _ _ hm).2.1, .inr ⟨_, _, hm, rfl⟩⟩,
            (hv.header _ _ _ hm).2.2⟩
          intro u hu' l hp'
          obtain ⟨x, w, rest, e, hx, hw, _⟩ := key u hu' l hp'
          rw [e]
          exact List.mem_append_left _ (hits_not hh x hx (by simp) u w hw hu')
        · rename_i s hh
          split at h
          · cases h
          · rename_i hp
            split at h
            · cases h
            · cases h
            · rename_i hi
              cases h
              have hs : b ∈ fn.succs bb := hits_sub hh b (by simp)
              have h1 := single_pred hv hs (by simpa using hp)
              refine ⟨dom_of_single hv hs h1, ?_, fun hr => ⟨self b hs h1 hr, .inl ?_⟩, hv.targets _ _ hs⟩
              · intro u hu' l hp'
                obtain ⟨x, w, rest, e, hx, hw, hbw⟩ := key u hu' l hp'
                by_cases hxb : x = b
                · subst hxb; rw [e]; exact List.mem_append_left _ hw.start_mem
                · exfalso
                  have hmw := hits_not hh x hx (by simpa using hxb) u w hw hu'
                  obtain ⟨w1, w2, _, k2, _, k4⟩ := hw.split hmw
                  have how := k4 _ (intersects_false hi k2 hu')
                  have hr : Reachable fn bb := ⟨rest, hp'.suffix e⟩
                  exact strict_not_on ho hr (hu u hu') hw hbw how
              · obtain ⟨l, hl⟩ := hr; exact ⟨_, hl.next hs⟩
        · cases h
      · cases h

theorem search_spec (hv : Valid S fn) {uses : List Lab} {orig : Lab} : ∀ (n : Nat) (bb t : Lab),
    Dominates fn orig bb → (∀ u ∈ uses, Dominates fn bb u) → search fn uses orig n bb = some t →
    Dominates fn orig t ∧ (∀ u ∈ uses, Dominates fn t u) ∧ (t = bb ∨ t ∈ fn.labels)
  | 0, bb, t, _, _, h => by simp [search] at h
  | n + 1, bb, t, ho, hu, h => by
    unfold search at h
    split at h
    · cases h
    · cases h; exact ⟨ho, hu, .inl rfl⟩
    · rename_i b hn
      obtain ⟨h1, h2, _, h4⟩ := next_go hv ho hu hn
      obtain ⟨k1, k2, k3⟩ := search_spec hv n b t (ho.trans h1) h2 h
      refine ⟨k1, k2, .inr ?_⟩
      rcases k3 with rfl | k3
      · exact h4
      · exact k3

theorem next_ends (hv : Valid S fn) (uses : List Lab) (orig bb : Lab) :
    ∃ r, next fn uses orig bb = some r := by
  unfold next
  split
  · exact ⟨_, rfl⟩
  · split
    · split <;> exact ⟨_, rfl⟩
    · split
      · rename_i m df _
        obtain ⟨hs, hh⟩ := hits_ends hv.targets m uses (fn.succs bb)
        rw [hh]
        obtain ⟨r, hr⟩ := intersects_ends hv.targets m orig uses
        rw [hr]
        match hs with
        | [] => exact ⟨_, rfl⟩
        | [s] =>
          simp only
          split
          · exact ⟨_, rfl⟩
          · cases r <;> exact ⟨_, rfl⟩
        | _ :: _ :: _ => exact ⟨_, rfl⟩
      · exact ⟨_, rfl⟩

theorem search_ends_from (hv : Valid S fn)
    (hm : ∀ b m df, (fn.block b).merge = some (.selection m df) → Reachable fn b → Reachable fn m)
    {uses : List Lab} {orig : Lab} : ∀ (n : Nat) (bb : Lab) (vis : List Lab),
    Dominates fn orig bb → (∀ u ∈ uses, Dominates fn bb u) → Reachable fn bb →
    (bb :: vis).Nodup → (∀ v ∈ vis, Dominates fn v bb) → (∀ v ∈ bb :: vis, v ∈ fn.labels) →
    fn.labels.length ≤ n + vis.length → ∃ t, search fn uses orig n bb = some t
  | 0, bb, vis, _, _, _, hn, _, hl, h => by
    have := List.Nodup.length_le_of_subset hn (fun x hx => hl x hx)
    simp only [List.length_cons] at this
    omega
  | n + 1, bb, vis, ho, hu, hr, hn, hd, hl, h => by
    unfold search
    obtain ⟨r, hr'⟩ := next_ends hv uses orig bb
    rw [hr']
    cases r with
    | stay => exact ⟨_, rfl⟩
    | go b =>
      simp only
      obtain ⟨h1, h2, h3, h4⟩ := next_go hv ho hu hr'
      obtain ⟨h5, h6⟩ := h3 hr
      have hrb : Reachable fn b := by
        rcases h6 with h6 | ⟨m, df, h6, rfl⟩
        · exact h6
        · exact hm _ _ _ h6 hr
      refine search_ends_from hv hm n b (bb :: vis) (ho.trans h1) h2 hrb ?_ ?_ ?_ ?_
      · refine List.nodup_cons.2 ⟨?_, hn⟩
        intro hb
        rcases List.mem_cons.1 hb with e | hb
        · exact h5 e
        · exact h5 ((hd b hb).antisymm h1 hr)
      · intro v hv'
        rcases List.mem_cons.1 hv' with rfl | hv'
        · exact h1
        · exact (hd v hv').trans h1
      · intro v hv'
        rcases List.mem_cons.1 hv' with rfl | hv'
        · exact h4
        · exact hl v hv'
      · simp only [List.length_cons]; omega

end Verif.CodeSink.Spec
