import Verif.Adce.Construct
/-!
# Dead constructs: nothing in them is live, and they are left only through their merge block
-/
set_option linter.unusedSimpArgs false
set_option linter.unusedVariables false
set_option linter.unusedSectionVars false
namespace Verif.Adce
open Spec

section
variable {F : Func} (hv : Valid F) (hs : Structured F)
include hv

omit hv in
theorem pos_lt {b : Id} (h : Label F b) : pos F b < F.order.length := by
  obtain ⟨B, hB, rfl⟩ := h
  have := List.idxOf_lt_length_iff.2 (List.mem_map.2 ⟨B, hB, rfl⟩ : B.id ∈ F.order.map (·.id))
  simpa [pos] using this

include hs

/-- The merge block of a construct is in the same constructs as its header. -/
theorem merge_same {B : Block} {g : Merge} (hB : B ∈ F.order) (hg : B.merge = some g) {h : Id} :
    Inside F h g.block ↔ Inside F h B.id := by
  constructor
  · intro hi
    obtain ⟨H, hH, e, k, hk, hp, hq⟩ := hi
    have hma := hs.merge_after B hB g hg
    refine ⟨H, hH, e, k, hk, ?_, by omega⟩
    by_cases hlt : pos F h < pos F B.id
    · exact hlt
    · exfalso
      by_cases heq : pos F h = pos F B.id
      · rw [← e] at heq
        have e' := pos_inj ⟨H, hH, rfl⟩ heq
        have : some H = some B := by rw [← block_eq hv hH, ← block_eq hv hB, e']
        cases this
        rw [hg] at hk
        cases hk
        omega
      · have := hs.nested B hB g hg H hH k hk ⟨B, hB, rfl, g, hg, by rw [e]; omega, by rw [e]; omega⟩
        omega
  · intro hi
    exact inside_merge hv hs hB hg hi

/-- The innermost construct around a live block is live. -/
theorem innermost_live : ∀ (n : Nat) (B : Block), B ∈ F.order → F.order.length - pos F B.id ≤ n →
    Item.label B.id ∈ F.live → ∀ h, Inside F h B.id → (∀ h', Inside F h' B.id → h' = h ∨ Inside F h' h) →
    Item.term h ∈ F.live ∧ Item.merge h ∈ F.live := by
  intro n
  induction n with
  | zero =>
    intro B hB hn
    have := pos_lt ⟨B, hB, rfl⟩
    omega
  | succ n ih =>
    intro B hB hn hl h hi hin
    cases hb : B.isLoop with
    | false =>
      have hu := up_innermost hv hs hB
      cases he : F.up B.id with
      | none => rw [he] at hu; exact absurd hi (hu h)
      | some c =>
        rw [he] at hu
        have hc : c = h := by
          rcases hu.2 h hi with e | h1
          · exact e.symm
          · rcases hin c hu.1 with e | h2
            · exact e
            · have := inside_lt h1; have := inside_lt h2; omega
        subst hc
        obtain ⟨C, hC, rfl, _⟩ := inside_block hi
        have hnx : F.nextHeader B = some C := by
          simp [Func.nextHeader, Func.headerOf, hb, he, block_eq hv hC]
        constructor
        · exact alive_deps hv hB (.label hl) (by simp [Func.blockDeps, hnx]) (item_block hC).2.2
        · exact alive_deps hv hB (.label hl) (by simp [Func.blockDeps, hnx]) (item_block hC).2.1
    | true =>
      cases hg : B.merge with
      | none => simp [Block.isLoop, hg] at hb
      | some g =>
        have hlm := alive_merge hv hB (.label hl) hg
        obtain ⟨M, hM, em⟩ := hv.merges B hB g hg _ (merge_label g)
        have hma := hs.merge_after B hB g hg
        have hpl := pos_lt ⟨B, hB, rfl⟩
        refine ih M hM (by rw [em]; omega) (by rw [em]; exact hlm) h ?_ ?_
        · rw [em]; exact (merge_same hv hs hB hg).2 hi
        · intro h' hi'
          rw [em] at hi'
          exact hin h' ((merge_same hv hs hB hg).1 hi')

/-- Every construct around a live block is live. -/
theorem around_live : ∀ (n : Nat) (B : Block), B ∈ F.order → pos F B.id ≤ n →
    Item.label B.id ∈ F.live → ∀ h, Inside F h B.id → Item.term h ∈ F.live ∧ Item.merge h ∈ F.live := by
  intro n
  induction n with
  | zero =>
    intro B hB hn hl h hi
    have := inside_lt hi
    omega
  | succ n ih =>
    intro B hB hn hl h hi
    have hu := up_innermost hv hs hB
    cases he : F.up B.id with
    | none => rw [he] at hu; exact absurd hi (hu h)
    | some c =>
      rw [he] at hu
      have hc := innermost_live hv hs _ B hB (Nat.le_refl _) hl c hu.1 hu.2
      rcases hu.2 h hi with rfl | h1
      · exact hc
      · obtain ⟨K, hK, rfl, _⟩ := inside_block hu.1
        have := inside_lt hu.1
        exact ih K hK (by omega) (alive_label hv hK (.merge hc.2)) h h1

/-- Nothing of a block inside a dead construct is live. -/
theorem dead_inside {H B : Block} (hB : B ∈ F.order) (hd : Item.merge H.id ∉ F.live)
    (hi : Inside F H.id B.id) {l : Bool} : ¬ Alive F B l :=
  fun h => hd (around_live hv hs _ B hB (Nat.le_refl _) (alive_label hv hB h) H.id hi).2

omit hs in
theorem dead_loop {H : Block} (hH : H ∈ F.order) (hd : Item.merge H.id ∉ F.live) (hl : H.isLoop = true) :
    ¬ Alive F H false :=
  fun h => hd (alive_loop hv hH h hl).2

/-! ## Branches and merge instructions are live together -/

omit hv hs in
theorem deps_block {x y : Item} (h : x ∈ F.deps y) (hx : ∀ b, x ≠ .label b) (hx' : ∀ b, x ≠ .inst b) :
    ∃ K ∈ F.order, ∃ l m, x ∈ F.blockDeps K l m ∧ F.blockDeps K l m ⊆ F.deps y := by
  cases y with
  | label b =>
    cases hb : F.block b with
    | none => simp [Func.deps, hb] at h
    | some B =>
      simp only [Func.deps, hb] at h ⊢
      exact ⟨B, (block_mem hb).1, _, _, h, fun _ h => h⟩
  | merge b =>
    cases hb : F.block b with
    | none => simp [Func.deps, hb] at h
    | some B =>
      simp only [Func.deps, hb] at h ⊢
      refine ⟨B, (block_mem hb).1, false, true, ?_, fun z hz => List.mem_append_right _ hz⟩
      rcases List.mem_append.1 h with h | h
      · cases hm : B.merge with
        | none => simp [hm] at h
        | some g =>
          simp only [hm, List.mem_map] at h
          obtain ⟨a, _, e⟩ := h
          exact absurd e.symm (hx a)
      · exact h
  | term b =>
    cases hb : F.block b with
    | none => simp [Func.deps, hb] at h
    | some B =>
      simp only [Func.deps, hb] at h ⊢
      refine ⟨B, (block_mem hb).1, false, false, ?_, fun z hz => List.mem_append_right _ hz⟩
      rcases List.mem_append.1 h with h | h
      · rcases List.mem_append.1 h with h | h
        · obtain ⟨a, _, e⟩ := List.mem_map.1 h
          exact absurd e.symm (hx' a)
        · obtain ⟨a, _, e⟩ := List.mem_map.1 h
          exact absurd e.symm (hx a)
      · exact h
  | inst i =>
    cases hb : F.find i with
    | none => simp [Func.deps, hb] at h
    | some u =>
      simp only [Func.deps, hb] at h ⊢
      rcases List.mem_append.1 h with h | h
      · rcases List.mem_append.1 h with h | h
        · rcases List.mem_append.1 h with h | h
          · obtain ⟨a, _, e⟩ := List.mem_map.1 h
            exact absurd e.symm (hx' a)
          · obtain ⟨a, _, e⟩ := List.mem_map.1 h
            exact absurd e.symm (hx a)
        · cases hc : F.blockOf i with
          | none => simp [hc] at h
          | some B =>
            simp only [hc] at h
            exact ⟨B, List.mem_of_find?_eq_some hc, _, _, h,
              fun z hz => List.mem_append_left _ (List.mem_append_right _ hz)⟩
      · obtain ⟨a, _, e⟩ := List.mem_map.1 h
        exact absurd e.symm (hx' a)

omit hs in
theorem term_pair {B K : Block} {l m : Bool} (hB : B ∈ F.order) (hK : K ∈ F.order) (hg : B.merge ≠ none)
    (h : Item.term B.id ∈ F.blockDeps K l m) : Item.merge B.id ∈ F.blockDeps K l m ∨ B.isLoop = true := by
  have huniq : ∀ C ∈ F.order, C.id = B.id → C = B := by
    intro C hC e
    have : some C = some B := by rw [← block_eq hv hC, ← block_eq hv hB, e]
    cases this; rfl
  simp only [Func.blockDeps, List.mem_cons, List.mem_append] at h ⊢
  rcases h with h | ((h | h) | h) | h
  · cases h
  · cases hm : K.merge with
    | some g => simp [hm] at h
    | none =>
      simp only [hm, List.mem_singleton, Item.term.injEq] at h
      rw [← huniq K hK h.symm] at hg
      exact absurd hm hg
  · by_cases hc : (!l && K.isLoop) = true
    · simp only [hc, if_true, List.mem_cons, Item.term.injEq, reduceCtorEq, List.not_mem_nil, or_false] at h
      rw [← huniq K hK h.symm]
      simp only [Bool.and_eq_true] at hc
      exact .inr hc.2
    · simp [hc] at h
  · cases hn : F.nextHeader K with
    | none => simp [hn] at h
    | some N =>
      simp only [hn, List.mem_cons, Item.term.injEq, reduceCtorEq, List.not_mem_nil, or_false] at h
      left; right; left; right
      simp [h]
  · cases m with
    | false => simp at h
    | true =>
      cases hm : K.merge with
      | none => simp [hm] at h
      | some g =>
        simp only [hm, if_true, List.mem_append] at h ⊢
        rcases h with h | h
        · left; right; right; left
          simp only [Func.breaks, List.mem_flatMap, List.mem_filter] at h ⊢
          obtain ⟨C, ⟨hC, hcond⟩, hmem⟩ := h
          refine ⟨C, ⟨hC, hcond⟩, ?_⟩
          have e : C = B := by
            refine huniq C hC ?_
            by_cases hcm : C.merge.isSome = true
            · simp [hcm] at hmem; exact hmem.symm
            · simp [hcm] at hmem; exact hmem.symm
          subst e
          have : C.merge.isSome = true := Option.isSome_iff_ne_none.2 hg
          simp [this]
        · cases g with
          | sel m => simp [Func.continues] at h
          | loop m k =>
            simp only [Func.continues, List.mem_flatMap, List.mem_filter] at h ⊢
            obtain ⟨C, ⟨hC, hcond⟩, hmem⟩ := h
            cases ht : C.term with
            | choice c ts =>
              simp only [ht] at hmem
              cases hcm : C.merge with
              | none =>
                simp only [hcm, List.mem_singleton, Item.term.injEq] at hmem
                rw [← huniq C hC hmem.symm] at hg
                exact absurd hcm hg
              | some g' =>
                cases g' with
                | loop m' k' =>
                  simp only [hcm, List.mem_singleton, Item.term.injEq] at hmem
                  right
                  rw [← huniq C hC hmem.symm]
                  simp [Block.isLoop, hcm]
                | sel m' =>
                  simp only [hcm] at hmem
                  by_cases hk : m' = k
                  · simp [hk] at hmem
                  · simp only [hk, if_false, List.mem_cons, Item.term.injEq, reduceCtorEq, List.not_mem_nil,
                      or_false, false_or] at hmem
                    left; right; right; right
                    refine ⟨C, ⟨hC, hcond⟩, ?_⟩
                    simp [ht, hcm, hk, hmem]
            | br t =>
              have e : C = B := by
                refine huniq C hC ?_
                simp only [ht] at hmem
                split at hmem
                · cases hmem
                · split at hmem
                  · split at hmem
                    · cases hmem
                    · simp at hmem; exact hmem.symm
                  · cases hmem
              subst e
              cases hcm : C.merge with
              | none => exact absurd hcm hg
              | some g' =>
                cases g' with
                | loop m' k' => right; simp [Block.isLoop, hcm]
                | sel m' =>
                  obtain ⟨c, ts, e⟩ := hv.sel_term C hC m' hcm
                  rw [ht] at e
                  cases e
            | exit ops => simp [ht] at hmem
            | exitUndef => simp [ht] at hmem
            | unreachable => simp [ht] at hmem

omit hs in
/-- The merge instruction of a header is live when its branch is. -/
theorem term_merge {B : Block} (hB : B ∈ F.order) (hg : B.merge ≠ none) (h : Item.term B.id ∈ F.live) :
    Item.merge B.id ∈ F.live := by
  have hloop : B.isLoop = true → Item.merge B.id ∈ F.live := fun hl => (alive_loop hv hB (.term h) hl).2
  rcases live_why h with hr | ⟨y, hy, hd⟩
  · simp only [Func.roots, List.mem_append] at hr
    rcases hr with (hr | hr) | hr
    · simp at hr
    · cases ho : F.order with
      | nil => simp [ho] at hr
      | cons K ks =>
        simp only [ho, List.head?_cons] at hr
        have hK : K ∈ F.order := by simp [ho]
        rcases term_pair hv hB hK hg hr with h' | h'
        · refine live_root ?_ (item_block hB).2.1
          simp only [Func.roots, ho, List.head?_cons, List.mem_append]
          exact .inl (.inr h')
        · exact hloop h'
    · simp only [List.mem_flatMap, List.mem_append] at hr
      obtain ⟨C, hC, hr⟩ := hr
      rcases hr with hr | hr
      · simp at hr
      · by_cases hx : C.term.isExit = true
        · simp only [hx, if_true, List.mem_singleton, Item.term.injEq] at hr
          have : some B = some C := by rw [← block_eq hv hB, ← block_eq hv hC, hr]
          cases this
          exfalso
          cases hm : B.merge with
          | none => exact hg hm
          | some g =>
            cases g with
            | sel m =>
              obtain ⟨c, ts, e⟩ := hv.sel_term B hB m hm
              rw [e] at hx; simp [Term.isExit] at hx
            | loop m k =>
              have := hv.loop_term B hB m k hm
              cases ht : B.term <;> rw [ht] at hx this <;> simp [Term.isExit, Term.targets] at hx this
        · simp [hx] at hr
  · obtain ⟨K, hK, l, m, h1, h2⟩ := deps_block hd (by simp) (by simp)
    rcases term_pair hv hB hK hg h1 with h' | h'
    · exact live_deps hy (h2 h') (item_block hB).2.1
    · exact hloop h'

omit hv hs in
theorem merge_pair {b : Id} {K : Block} {l m : Bool} (h : Item.merge b ∈ F.blockDeps K l m) :
    Item.term b ∈ F.blockDeps K l m := by
  simp only [Func.blockDeps, List.mem_cons, List.mem_append] at h ⊢
  rcases h with h | ((h | h) | h) | h
  · cases h
  · cases hm : K.merge <;> simp [hm] at h
  · by_cases hc : (!l && K.isLoop) = true
    · simp only [hc, if_true, List.mem_cons, Item.merge.injEq, reduceCtorEq, List.not_mem_nil, or_false,
        false_or] at h
      right; left; left; right
      simp [hc, h]
    · simp [hc] at h
  · cases hn : F.nextHeader K with
    | none => simp [hn] at h
    | some N =>
      simp only [hn, List.mem_cons, Item.merge.injEq, reduceCtorEq, List.not_mem_nil, or_false, false_or] at h
      right; left; right
      simp [h]
  · cases m with
    | false => simp at h
    | true =>
      cases hm : K.merge with
      | none => simp [hm] at h
      | some g =>
        simp only [hm, if_true, List.mem_append] at h ⊢
        rcases h with h | h
        · right; right; left
          simp only [Func.breaks, List.mem_flatMap, List.mem_filter] at h ⊢
          obtain ⟨C, ⟨hC, hcond⟩, hmem⟩ := h
          refine ⟨C, ⟨hC, hcond⟩, ?_⟩
          by_cases hcm : C.merge.isSome = true
          · simp [hcm] at hmem; simp [hmem]
          · simp [hcm] at hmem
        · right; right; right
          cases g with
          | sel m => simp [Func.continues] at h
          | loop m k =>
            simp only [Func.continues, List.mem_flatMap, List.mem_filter] at h ⊢
            obtain ⟨C, ⟨hC, hcond⟩, hmem⟩ := h
            refine ⟨C, ⟨hC, hcond⟩, ?_⟩
            cases ht : C.term with
            | choice c ts =>
              simp only [ht] at hmem ⊢
              cases hcm : C.merge with
              | none => simp [hcm] at hmem
              | some g' =>
                cases g' with
                | loop m' k' => simp [hcm] at hmem
                | sel m' =>
                  simp only [hcm] at hmem ⊢
                  by_cases hk : m' = k
                  · simp [hk] at hmem
                  · simp [hk] at hmem ⊢
                    exact hmem
            | br t =>
              exfalso
              simp only [ht] at hmem
              split at hmem
              · cases hmem
              · split at hmem
                · split at hmem
                  · cases hmem
                  · simp at hmem
                · cases hmem
            | exit ops => simp [ht] at hmem
            | exitUndef => simp [ht] at hmem
            | unreachable => simp [ht] at hmem

omit hs in
/-- The branch of a block is live when its merge instruction is. -/
theorem merge_term {B : Block} (hB : B ∈ F.order) (h : Item.merge B.id ∈ F.live) :
    Item.term B.id ∈ F.live := by
  rcases live_why h with hr | ⟨y, hy, hd⟩
  · simp only [Func.roots, List.mem_append] at hr
    rcases hr with (hr | hr) | hr
    · simp at hr
    · cases ho : F.order with
      | nil => simp [ho] at hr
      | cons K ks =>
        simp only [ho, List.head?_cons] at hr
        refine live_root ?_ (item_block hB).2.2
        simp only [Func.roots, ho, List.head?_cons, List.mem_append]
        exact .inl (.inr (merge_pair hr))
    · simp only [List.mem_flatMap, List.mem_append] at hr
      obtain ⟨C, hC, hr⟩ := hr
      rcases hr with hr | hr
      · simp at hr
      · by_cases hx : C.term.isExit = true <;> simp [hx] at hr
  · obtain ⟨K, hK, l, m, h1, h2⟩ := deps_block hd (by simp) (by simp)
    exact live_deps hy (h2 (merge_pair h1)) (item_block hB).2.2

/-! ## Leaving a dead construct -/

theorem dead_exit {H B : Block} {g : Merge} {t : Id} (hH : H ∈ F.order) (hg : H.merge = some g)
    (hl : Item.label H.id ∈ F.live) (hd : Item.merge H.id ∉ F.live) (hB : B ∈ F.order)
    (hr : H.id = B.id ∨ Inside F H.id B.id) (ht : t ∈ B.term.targets) :
    t = H.id ∨ Inside F H.id t ∨ t = g.block := by
  by_cases h1 : t = H.id
  · exact .inl h1
  by_cases h2 : Inside F H.id t
  · exact .inr (.inl h2)
  right; right
  rcases hs.leave B hB t ht H hH g hg hr h1 h2 with h | ⟨O, hO, hOH, h⟩
  · exact h
  by_cases h3 : t = g.block
  · exact h3
  exfalso
  have hterm : Item.term B.id ∉ F.live := by
    intro h
    rcases hr with e | hi
    · have : some H = some B := by rw [← block_eq hv hH, ← block_eq hv hB, e]
      cases this
      exact hd (term_merge hv hB (by simp [hg]) h)
    · exact dead_inside hv hs hB hd hi (.term h)
  have hOl := (around_live hv hs _ H hH (Nat.le_refl _) hl O.id hOH).2
  have hOB : Inside F O.id B.id := by
    rcases hr with e | hi
    · rw [← e]; exact hOH
    · exact inside_trans hv hs hOH hi
  have hOm : ∃ k, O.merge = some k := by
    obtain ⟨O', hO', e, k, hk, _⟩ := hOH
    have : some O' = some O := by rw [← block_eq hv hO', ← block_eq hv hO, e]
    cases this
    exact ⟨k, hk⟩
  have hdeps : ∀ k x, O.merge = some k → x ∈ F.breaks O.id k ++ F.continues k → x ∈ F.deps (.merge O.id) := by
    intro k x hk hx
    simp only [Func.deps, block_eq hv hO]
    refine List.mem_append_right _ ?_
    simp only [Func.blockDeps, hk, if_true, List.mem_cons, List.mem_append] at hx ⊢
    exact .inr (.inr hx)
  rcases h with ⟨k, hk, e⟩ | ⟨m, hk, hin⟩
  · refine hterm (live_deps hOl (hdeps k _ hk (List.mem_append_left _ ?_)) (item_block hB).2.2)
    simp only [Func.breaks, List.mem_flatMap, List.mem_filter]
    refine ⟨B, ⟨hB, ?_⟩, by simp⟩
    have hc := inConstruct_of hv hs (F.order.length + 1) B hB
      (by have := pos_lt ⟨B, hB, rfl⟩; omega) (.inr hOB)
    simp [hc, ← e, ht]
  · refine hterm (live_deps hOl (hdeps _ _ hk (List.mem_append_right _ ?_)) (item_block hB).2.2)
    simp only [Func.continues, List.mem_flatMap, List.mem_filter]
    refine ⟨B, ⟨hB, by simp [ht]⟩, ?_⟩
    have hinH : ∀ K ∈ F.order, ∀ k, K.merge = some k → k.block = t → (K.id = H.id ∨ Inside F H.id K.id) → False := by
      intro K hK k hk' e hr'
      rcases hr' with e' | hi
      · have : some K = some H := by rw [← block_eq hv hK, ← block_eq hv hH, e']
        cases this
        rw [hg] at hk'
        cases hk'
        exact h3 e.symm
      · have := inside_merge hv hs hK hk' hi
        rw [e] at this
        exact h2 this
    have hr' : B.id = H.id ∨ Inside F H.id B.id := by
      rcases hr with e | h
      · exact .inl e.symm
      · exact .inr h
    cases hbt : B.term with
    | choice c ts =>
      simp only
      cases hbm : B.merge with
      | none => simp
      | some g' =>
        cases g' with
        | loop m' k' => simp
        | sel m' =>
          have : m' ≠ t := fun e => hinH B hB _ hbm e hr'
          simp [this]
    | br t' =>
      simp only
      have hnl : B.isLoop = false := by
        cases hb : B.isLoop with
        | false => rfl
        | true => exact absurd hOB (hin B hB hb (.inl rfl))
      have hBH : Inside F H.id B.id := by
        rcases hr with e | h
        · exfalso
          have : some H = some B := by rw [← block_eq hv hH, ← block_eq hv hB, e]
          cases this
          cases g with
          | sel m' =>
            obtain ⟨c, ts, e⟩ := hv.sel_term H hH m' hg
            rw [hbt] at e
            cases e
          | loop m' k' => simp [Block.isLoop, hg] at hnl
        · exact h
      have hu := up_innermost hv hs hB
      cases he : F.up B.id with
      | none => rw [he] at hu; exact absurd hBH (hu _)
      | some c =>
        rw [he] at hu
        obtain ⟨K, hK, e, hKm⟩ := inside_block hu.1
        have hho : F.headerOf B = some K := by
          simp [Func.headerOf, hnl, he, ← e, block_eq hv hK]
        simp only [hho]
        have hHK : K.id = H.id ∨ Inside F H.id K.id := by
          rw [e]
          rcases hu.2 _ hBH with e' | h
          · exact .inl e'.symm
          · exact .inr h
        cases hKm' : K.merge with
        | none => exact absurd hKm' hKm
        | some k =>
          cases k with
          | loop m' k' =>
            exfalso
            refine hin K hK (by simp [Block.isLoop, hKm']) (.inr (by rw [e]; exact hu.1)) ?_
            rcases hHK with e' | h
            · rw [e']; exact hOH
            · exact inside_trans hv hs hOH h
          | sel m' =>
            have : m' ≠ t := fun e => hinH K hK _ hKm' e hHK
            simp [this]
    | exit ops => rw [hbt] at ht; cases ht
    | exitUndef => rw [hbt] at ht; cases ht
    | unreachable => rw [hbt] at ht; cases ht

end

end Verif.Adce
