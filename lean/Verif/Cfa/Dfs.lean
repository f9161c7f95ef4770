import Verif.Cfa.Spec
set_option linter.unusedSimpArgs false
set_option linter.unusedVariables false
set_option linter.unusedSectionVars false
namespace Verif.Cfa
open Spec
variable {B : Type} [DecidableEq B]

@[simp] theorem preOf_nil : preOf ([] : List (Event B)) = [] := rfl
@[simp] theorem postOf_nil : postOf ([] : List (Event B)) = [] := rfl
@[simp] theorem backOf_nil : backOf ([] : List (Event B)) = [] := rfl
@[simp] theorem preOf_pre (b : B) (es) : preOf (.pre b :: es) = b :: preOf es := rfl
@[simp] theorem preOf_post (b : B) (es) : preOf (.post b :: es) = preOf es := rfl
@[simp] theorem preOf_back (a b : B) (es) : preOf (.back a b :: es) = preOf es := rfl
@[simp] theorem postOf_pre (b : B) (es) : postOf (.pre b :: es) = postOf es := rfl
@[simp] theorem postOf_post (b : B) (es) : postOf (.post b :: es) = b :: postOf es := rfl
@[simp] theorem postOf_back (a b : B) (es) : postOf (.back a b :: es) = postOf es := rfl
@[simp] theorem backOf_pre (b : B) (es) : backOf (.pre b :: es) = backOf es := rfl
@[simp] theorem backOf_post (b : B) (es) : backOf (.post b :: es) = backOf es := rfl
@[simp] theorem backOf_back (a b : B) (es) : backOf (.back a b :: es) = (a, b) :: backOf es := rfl
@[simp] theorem preOf_append (a b : List (Event B)) : preOf (a ++ b) = preOf a ++ preOf b :=
  List.filterMap_append
@[simp] theorem postOf_append (a b : List (Event B)) : postOf (a ++ b) = postOf a ++ postOf b :=
  List.filterMap_append
@[simp] theorem backOf_append (a b : List (Event B)) : backOf (a ++ b) = backOf a ++ backOf b :=
  List.filterMap_append

@[simp] theorem preOf_ite (p : Prop) [Decidable p] (a b : B) :
    preOf (if p then [Event.back a b] else []) = [] := by split <;> rfl
@[simp] theorem postOf_ite (p : Prop) [Decidable p] (a b : B) :
    postOf (if p then [Event.back a b] else []) = [] := by split <;> rfl
@[simp] theorem backOf_ite (p : Prop) [Decidable p] (a b : B) :
    backOf (if p then [Event.back a b] else []) = if p then [(a, b)] else [] := by split <;> rfl

/-! ### refinement of the work-list loop to the recursive search -/

inductive Run (kids : B → List B) (terminal : B → Bool) :
    List B → List (B × List B) → List (Event B) → Prop
  | nil (P) : Run kids terminal P [] []
  | cons {P u rest st e P' e'} :
      Kids kids u (st.map (·.1)) P (if terminal u then [] else rest) e P' →
      Run kids terminal P' st e' → Run kids terminal P ((u, rest) :: st) (e ++ .post u :: e')

theorem dfsLoop_run [Blocks B] (succ : B → List B) (terminal : B → Bool) (P : List B)
    (work : List (B × List B)) (hsub : ∀ w ∈ work, w.1 ∈ P) :
    Run (fun b => if terminal b then [] else succ b) terminal P work
      (dfsLoop succ terminal P work) := by
  fun_induction dfsLoop succ terminal P work with
  | case1 P => exact .nil _
  | case2 P b rest work ht ih =>
    have := ih fun w hw => hsub w (by simp [hw])
    exact Run.cons (e := []) (by rw [if_pos ht]; exact .nil _ _ _) this
  | case3 P b work ht ih =>
    have := ih fun w hw => hsub w (by simp [hw])
    exact Run.cons (e := []) (by rw [if_neg ht]; exact .nil _ _ _) this
  | case4 P b work ht child rest ih1 ih2 =>
    by_cases hc : child ∈ P
    · have hr := ih1 (by
        intro w hw
        rcases List.mem_cons.mp hw with rfl | hw
        · exact hsub (b, child :: rest) (by simp)
        · exact hsub w (by simp [hw]))
      generalize dfsLoop succ terminal P ((b, rest) :: work) = es at hr
      rw [dif_pos hc]
      rcases hr with _ | ⟨hk, hr⟩
      rename_i e P' e'
      rw [if_neg ht] at hk
      rw [← List.append_assoc]
      refine Run.cons ?_ hr
      rw [if_neg ht]
      exact .skip hc hk
    · have hr := ih2 hc (by
        intro w hw
        rcases List.mem_cons.mp hw with rfl | hw
        · simp
        · rcases List.mem_cons.mp hw with rfl | hw
          · exact List.mem_cons_of_mem _ (hsub (b, child :: rest) (by simp))
          · exact List.mem_cons_of_mem _ (hsub w (by simp [hw])))
      generalize dfsLoop succ terminal (child :: P) ((child, succ child) :: (b, rest) :: work) = es at hr
      rw [dif_neg hc]
      rcases hr with _ | ⟨hk, hr⟩
      rename_i e1 P1 e'
      rcases hr with _ | ⟨hk2, hr⟩
      rename_i e2 P2 e'
      rw [if_neg ht] at hk2
      have hns : child ∉ b :: work.map (·.1) := by
        intro h
        rcases List.mem_cons.mp h with rfl | h
        · exact hc (hsub (child, child :: rest) (by simp))
        · obtain ⟨w, hw, rfl⟩ := List.mem_map.mp h
          exact hc (hsub w (by simp [hw]))
      rw [if_neg hns, List.nil_append]
      have : Event.pre child :: (e1 ++ Event.post child :: (e2 ++ Event.post b :: e')) =
        (Event.pre child :: (e1 ++ Event.post child :: e2)) ++ Event.post b :: e' := by simp
      rw [this]
      refine Run.cons ?_ hr
      rw [if_neg ht]
      exact .enter hc hk hk2

theorem depthFirst_isDfs [Blocks B] (succ : B → List B) (terminal : B → Bool) (entry : B) :
    IsDfs succ terminal entry (depthFirst succ terminal entry) := by
  have h := dfsLoop_run succ terminal [entry] [(entry, succ entry)] (by simp)
  unfold depthFirst IsDfs
  generalize dfsLoop succ terminal [entry] [(entry, succ entry)] = es at h
  rcases h with _ | ⟨hk, hr⟩
  rcases hr with _ | _
  exact ⟨_, _, hk, rfl⟩

/-! ### facts about the recursive search -/
namespace Spec

theorem Kids.seen {kids : B → List B} {u S P cs es P'} (h : Kids kids u S P cs es P') :
    ∀ x, x ∈ P' ↔ x ∈ P ∨ x ∈ preOf es := by
  induction h with
  | nil => simp
  | skip _ _ ih => intro x; simp [ih]
  | enter hc _ _ ih1 ih2 =>
    intro x
    simp only [ih2, ih1, preOf_pre, preOf_append, preOf_post, List.mem_cons, List.mem_append]
    grind

theorem Kids.nodup {kids : B → List B} {u S P cs es P'} (h : Kids kids u S P cs es P') :
    (preOf es).Nodup ∧ ∀ x ∈ preOf es, x ∉ P := by
  induction h with
  | nil => simp
  | skip _ _ ih => simpa using ih
  | enter hc h1 h2 ih1 ih2 =>
    have hs := h1.seen
    simp only [preOf_pre, preOf_append, preOf_post, List.nodup_cons, List.nodup_append,
      List.mem_cons, List.mem_append]
    grind

theorem Kids.perm {kids : B → List B} {u S P cs es P'} (h : Kids kids u S P cs es P') :
    (postOf es).Perm (preOf es) := by
  induction h with
  | nil => simp
  | skip _ _ ih => simpa using ih
  | enter hc h1 h2 ih1 ih2 =>
    simp only [preOf_pre, preOf_append, preOf_post, postOf_pre, postOf_append, postOf_post]
    exact List.perm_middle.trans ((ih1.append ih2).cons _)

theorem Kids.closed {kids : B → List B} {u S P cs es P'} (h : Kids kids u S P cs es P') :
    (∀ c ∈ cs, c ∈ P') ∧ ∀ x ∈ preOf es, ∀ y ∈ kids x, y ∈ P' := by
  induction h with
  | nil => simp
  | skip hc h ih =>
    have hs := h.seen
    simp only [preOf_append, preOf_ite, List.nil_append, List.mem_cons]
    grind
  | enter hc h1 h2 ih1 ih2 =>
    have hs1 := h1.seen
    have hs2 := h2.seen
    simp only [preOf_pre, preOf_append, preOf_post, List.mem_cons, List.mem_append]
    refine ⟨?_, ?_⟩
    · rintro c (rfl | hcs)
      · rw [hs2, hs1]; simp
      · exact ih2.1 c hcs
    · rintro x (rfl | hx | hx) y hy
      · rw [hs2]; exact Or.inl (ih1.1 y hy)
      · rw [hs2]; exact Or.inl (ih1.2 x hx y hy)
      · exact ih2.2 x hx y hy

theorem Reach.head {E : B → B → Prop} {a b c} (hab : E a b) (h : Reach E b c) : Reach E a c := by
  induction h with
  | refl => exact .tail (.refl _) hab
  | tail _ h ih => exact .tail ih h

theorem Reach.trans {E : B → B → Prop} {a b c} (h1 : Reach E a b) (h : Reach E b c) : Reach E a c := by
  induction h with
  | refl => exact h1
  | tail _ h ih => exact .tail ih h

theorem Kids.sound {kids : B → List B} {u S P cs es P'} (h : Kids kids u S P cs es P') :
    ∀ x ∈ preOf es, ∃ c ∈ cs, Reach (fun a b => b ∈ kids a) c x := by
  induction h with
  | nil => simp
  | skip hc h ih =>
    intro x hx
    obtain ⟨c, hc, hr⟩ := ih x (by simpa using hx)
    exact ⟨c, by simp [hc], hr⟩
  | enter hc h1 h2 ih1 ih2 =>
    simp only [preOf_pre, preOf_append, preOf_post, List.mem_cons, List.mem_append]
    rintro x (rfl | hx | hx)
    · exact ⟨x, Or.inl rfl, .refl _⟩
    · obtain ⟨c, hc, hr⟩ := ih1 x hx
      exact ⟨_, Or.inl rfl, hr.head hc⟩
    · obtain ⟨c, hc, hr⟩ := ih2 x hx
      exact ⟨c, Or.inr hc, hr⟩

/-! ### order of two elements -/

theorem Before.left {l l' : List B} {x y} (h : Before l x y) : Before (l ++ l') x y := by
  obtain ⟨a, b, c, rfl⟩ := h
  exact ⟨a, b, c ++ l', by simp⟩

theorem Before.right {l l' : List B} {x y} (h : Before l x y) : Before (l' ++ l) x y := by
  obtain ⟨a, b, c, rfl⟩ := h
  exact ⟨l' ++ a, b, c, by simp⟩

theorem Before.across {l l' : List B} {x y} (hx : x ∈ l) (hy : y ∈ l') : Before (l ++ l') x y := by
  obtain ⟨a, b, rfl⟩ := List.append_of_mem hx
  obtain ⟨c, d, rfl⟩ := List.append_of_mem hy
  exact ⟨a, b ++ c, d, by simp⟩

theorem Before.mem {l : List B} {x y} (h : Before l x y) : x ∈ l ∧ y ∈ l := by
  obtain ⟨a, b, c, rfl⟩ := h
  simp

theorem Before.asymm {l : List B} {x y} (hn : l.Nodup) (h : Before l x y) : ¬ Before l y x := by
  rintro ⟨a', b', c', h'⟩
  obtain ⟨a, b, c, rfl⟩ := h
  have e : a ++ x :: (b ++ y :: c) = a' ++ y :: (b' ++ x :: c') := by simpa using h'
  have hn : (a ++ x :: (b ++ y :: c)).Nodup := by simpa using hn
  rw [List.append_eq_append_iff] at e
  rcases e with ⟨d, rfl, e⟩ | ⟨d, rfl, e⟩
  · cases d with
    | nil =>
      simp only [List.nil_append, List.cons.injEq] at e
      obtain ⟨rfl, e⟩ := e
      simp [List.nodup_append] at hn
    | cons d0 d =>
      simp only [List.cons_append, List.cons.injEq] at e
      obtain ⟨rfl, e⟩ := e
      rw [e] at hn
      simp [List.nodup_append] at hn
  · cases d with
    | nil =>
      simp only [List.nil_append, List.cons.injEq] at e
      obtain ⟨rfl, e⟩ := e
      simp [List.nodup_append] at hn
    | cons d0 d =>
      simp only [List.cons_append, List.cons.injEq] at e
      obtain ⟨rfl, e⟩ := e
      simp [List.nodup_append] at hn

theorem Before.irrefl {l : List B} {x} (hn : l.Nodup) : ¬ Before l x x := by
  intro h; exact Before.asymm hn h h

/-- Every block entered is left before some predecessor of it is. -/
theorem Kids.parent {kids : B → List B} {u S P cs es P'} (h : Kids kids u S P cs es P') :
    ∀ x ∈ preOf es, x ∈ cs ∨ ∃ y, x ∈ kids y ∧ Before (postOf es) x y := by
  induction h with
  | nil => simp
  | skip hc h ih =>
    intro x hx
    rcases ih x (by simpa using hx) with h | ⟨y, h1, h2⟩
    · simp [h]
    · exact Or.inr ⟨y, h1, by simpa using h2⟩
  | enter hc h1 h2 ih1 ih2 =>
    rename_i u S P c cs e1 P1 e2 P2
    simp only [preOf_pre, preOf_append, preOf_post, List.mem_cons, List.mem_append, postOf_pre,
      postOf_append, postOf_post]
    rintro x (rfl | hx | hx)
    · exact Or.inl (Or.inl rfl)
    · rcases ih1 x hx with h | ⟨y, h1', h2'⟩
      · refine Or.inr ⟨c, h, Before.across (h1.perm.mem_iff.mpr hx) (by simp)⟩
      · exact Or.inr ⟨y, h1', h2'.left⟩
    · rcases ih2 x hx with h | ⟨y, h1', h2'⟩
      · exact Or.inl (Or.inr h)
      · refine Or.inr ⟨y, h1', ?_⟩
        have : Before ([c] ++ postOf e2) x y := h2'.right
        exact this.right

/-- A reported back edge is an edge to an open block: the source itself, an outer
ancestor, or a block left after the source. -/
theorem Kids.back {kids : B → List B} {u S P cs es P'} (h : Kids kids u S P cs es P') :
    ∀ x y, (x, y) ∈ backOf es →
      ((x = u ∧ y ∈ cs ∧ y ∈ u :: S) ∨
       (x ∈ preOf es ∧ y ∈ kids x ∧ (x = y ∨ y ∈ u :: S ∨ Before (postOf es) x y))) := by
  induction h with
  | nil => simp
  | skip hc h ih =>
    rename_i u S P c cs es P'
    intro x y hxy
    simp only [backOf_append, backOf_ite, List.mem_append, preOf_append, preOf_ite, postOf_append,
      postOf_ite, List.nil_append] at hxy ⊢
    rcases hxy with hxy | hxy
    · split at hxy
      · simp only [List.mem_singleton, Prod.mk.injEq] at hxy
        obtain ⟨rfl, rfl⟩ := hxy
        left; exact ⟨rfl, by simp, by assumption⟩
      · simp at hxy
    · rcases ih x y hxy with ⟨h1, h2, h3⟩ | h
      · left; exact ⟨h1, by simp [h2], h3⟩
      · right; exact h
  | enter hc h1 h2 ih1 ih2 =>
    rename_i u S P c cs e1 P1 e2 P2
    intro x y hxy
    simp only [backOf_pre, backOf_append, backOf_post, List.mem_append] at hxy
    simp only [preOf_pre, preOf_append, preOf_post, postOf_pre, postOf_append, postOf_post]
    rcases hxy with hxy | hxy
    · right
      rcases ih1 x y hxy with ⟨rfl, k2, k3⟩ | ⟨k1, k2, k3⟩
      · refine ⟨by simp, k2, ?_⟩
        rcases List.mem_cons.mp k3 with rfl | k3
        · exact Or.inl rfl
        · exact Or.inr (Or.inl k3)
      · refine ⟨by simp [k1], k2, ?_⟩
        rcases k3 with rfl | k3 | k3
        · exact Or.inl rfl
        · rcases List.mem_cons.mp k3 with rfl | k3
          · exact Or.inr (Or.inr (Before.across (h1.perm.mem_iff.mpr k1) (by simp)))
          · exact Or.inr (Or.inl k3)
        · exact Or.inr (Or.inr k3.left)
    · rcases ih2 x y hxy with ⟨rfl, k2, k3⟩ | ⟨k1, k2, k3⟩
      · left; exact ⟨rfl, by simp [k2], k3⟩
      · right
        refine ⟨by simp [k1], k2, ?_⟩
        rcases k3 with rfl | k3 | k3
        · exact Or.inl rfl
        · exact Or.inr (Or.inl k3)
        · exact Or.inr (Or.inr (Before.right (l' := postOf e1) (Before.right (l' := [c]) k3)))

/-- An edge not reported as a back edge leads to a block left earlier. -/
theorem Kids.cross {kids : B → List B} {u S P cs es P'} (h : Kids kids u S P cs es P') :
    (∀ y ∈ cs, (u, y) ∈ backOf es ∨ (y ∈ P ∧ y ∉ u :: S) ∨ y ∈ postOf es) ∧
    (∀ x ∈ preOf es, ∀ y ∈ kids x,
      (x, y) ∈ backOf es ∨ (y ∈ P ∧ y ∉ u :: S) ∨ Before (postOf es) y x) := by
  induction h with
  | nil => simp
  | skip hc h ih =>
    rename_i u S P c cs es P'
    simp only [backOf_append, backOf_ite, List.mem_append, preOf_append, preOf_ite, postOf_append,
      postOf_ite, List.nil_append]
    refine ⟨?_, ?_⟩
    · intro y hy
      rcases List.mem_cons.mp hy with rfl | hy
      · by_cases hs : y ∈ u :: S
        · left; left; rw [if_pos hs]; simp
        · exact Or.inr (Or.inl ⟨hc, hs⟩)
      · rcases ih.1 y hy with h | h
        · exact Or.inl (Or.inr h)
        · exact Or.inr h
    · intro x hx y hy
      rcases ih.2 x hx y hy with h | h
      · exact Or.inl (Or.inr h)
      · exact Or.inr h
  | enter hc h1 h2 ih1 ih2 =>
    rename_i u S P c cs e1 P1 e2 P2
    simp only [backOf_pre, backOf_append, backOf_post, List.mem_append, preOf_pre, preOf_append,
      preOf_post, postOf_pre, postOf_append, postOf_post]
    have hs1 := h1.seen
    -- anything seen before the second part and not an ancestor is old or was left in the first
    have old : ∀ y, y ∈ P1 → y ∉ u :: S → (y ∈ P ∧ y ∉ u :: S) ∨ y ∈ postOf e1 ++ [c] := by
      intro y hy hns
      rcases (hs1 y).mp hy with hy | hy
      · rcases List.mem_cons.mp hy with rfl | hy
        · right; simp
        · exact Or.inl ⟨hy, hns⟩
      · right; simp [h1.perm.mem_iff.mpr hy]
    refine ⟨?_, ?_⟩
    · intro y hy
      rcases List.mem_cons.mp hy with rfl | hy
      · right; right; simp
      · rcases ih2.1 y hy with h | ⟨ha, hb⟩ | h
        · exact Or.inl (Or.inr h)
        · rcases old y ha hb with h | h
          · exact Or.inr (Or.inl h)
          · right; right
            simp only [List.mem_append, List.mem_singleton, List.mem_cons] at h ⊢
            grind
        · right; right; simp [h]
    · intro x hx y hy
      simp only [List.mem_cons, List.mem_append] at hx
      rcases hx with rfl | hx | hx
      · rcases ih1.1 y hy with h | ⟨ha, hb⟩ | h
        · exact Or.inl (Or.inl h)
        · right; left
          simp only [List.mem_cons, not_or] at ha hb ⊢
          exact ⟨ha.resolve_left hb.1, hb.2⟩
        · exact Or.inr (Or.inr (Before.across h (by simp)))
      · rcases ih1.2 x hx y hy with h | ⟨ha, hb⟩ | h
        · exact Or.inl (Or.inl h)
        · right; left
          simp only [List.mem_cons, not_or] at ha hb ⊢
          exact ⟨ha.resolve_left hb.1, hb.2⟩
        · exact Or.inr (Or.inr h.left)
      · have hx2 : x ∈ postOf e2 := h2.perm.mem_iff.mpr hx
        rcases ih2.2 x hx y hy with h | ⟨ha, hb⟩ | h
        · exact Or.inl (Or.inr h)
        · rcases old y ha hb with h | h
          · exact Or.inr (Or.inl h)
          · right; right
            have : Before ((postOf e1 ++ [c]) ++ postOf e2) y x := Before.across h hx2
            simpa using this
        · exact Or.inr (Or.inr (Before.right (l' := postOf e1) (Before.right (l' := [c]) h)))

/-- The target of a reported back edge reaches its source. -/
theorem Kids.back_cycle {kids : B → List B} {u S P cs es P'} (h : Kids kids u S P cs es P')
    (hcs : ∀ c ∈ cs, c ∈ kids u)
    (hS : ∀ s ∈ u :: S, Reach (fun a b => b ∈ kids a) s u) :
    ∀ x y, (x, y) ∈ backOf es → Reach (fun a b => b ∈ kids a) y x := by
  induction h with
  | nil => simp
  | skip hc h ih =>
    intro x y hxy
    simp only [backOf_append, backOf_ite, List.mem_append] at hxy
    rcases hxy with hxy | hxy
    · split at hxy
      · rename_i hm
        simp only [List.mem_singleton, Prod.mk.injEq] at hxy
        obtain ⟨rfl, rfl⟩ := hxy
        exact hS _ hm
      · simp at hxy
    · exact ih (fun c hc => hcs c (by simp [hc])) hS x y hxy
  | enter hc h1 h2 ih1 ih2 =>
    intro x y hxy
    simp only [backOf_pre, backOf_append, backOf_post, List.mem_append] at hxy
    rcases hxy with hxy | hxy
    · refine ih1 (fun _ h => h) ?_ x y hxy
      intro s hs
      rcases List.mem_cons.mp hs with rfl | hs
      · exact .refl _
      · exact .tail (hS s hs) (hcs _ (by simp))
    · exact ih2 (fun c hc => hcs c (by simp [hc])) hS x y hxy

end Spec
end Verif.Cfa
