import Verif.Adce.Spec
/-!
# The live instructions, and the constructs they are in
-/
set_option linter.unusedSimpArgs false
set_option linter.unusedVariables false
set_option linter.unusedSectionVars false
namespace Verif.Adce
open Spec

/-! ## The worklist -/

theorem process_spec (deps : Item → List Item) (U : List Item) (R : List Item) : ∀ work live : List Item,
    (∀ x ∈ work, x ∈ live) →
    (∀ x ∈ live, x ∈ work ∨ ∀ y ∈ deps x, y ∈ U → y ∈ live) →
    (∀ x ∈ live, x ∈ R ∨ ∃ y ∈ live, x ∈ deps y) →
    (∀ x ∈ live, x ∈ process deps U work live) ∧
    (∀ x ∈ process deps U work live, ∀ y ∈ deps x, y ∈ U → y ∈ process deps U work live) ∧
    (∀ x ∈ process deps U work live, x ∈ R ∨ ∃ y ∈ process deps U work live, x ∈ deps y) := by
  intro work live
  induction work, live using process.induct (deps := deps) (U := U) with
  | case1 live =>
    intro h1 h2 h3
    rw [process]
    refine ⟨fun _ h => h, ?_, h3⟩
    intro x hx y hy hu
    rcases h2 x hx with h | h
    · cases h
    · exact h y hy hu
  | case2 live x w ih =>
    intro h1 h2 h3
    rw [process]
    have := ih (by
        intro z hz
        rcases List.mem_append.1 hz with hz | hz
        · exact List.mem_append_left _ (h1 z (by simp [hz]))
        · exact List.mem_append_right _ hz)
      (by
        intro z hz
        rcases List.mem_append.1 hz with hz | hz
        · by_cases hzx : z = x
          · subst hzx
            right
            intro y hy hu
            by_cases hl : y ∈ live
            · exact List.mem_append_left _ hl
            · exact List.mem_append_right _ (fresh_mem.2 ⟨hy, hu, hl⟩)
          · rcases h2 z hz with h | h
            · left
              rcases List.mem_cons.1 h with h | h
              · exact absurd h hzx
              · exact List.mem_append_left _ h
            · right
              intro y hy hu
              exact List.mem_append_left _ (h y hy hu)
        · exact .inl (List.mem_append_right _ hz))
      (by
        intro z hz
        rcases List.mem_append.1 hz with hz | hz
        · rcases h3 z hz with h | ⟨y, hy, h⟩
          · exact .inl h
          · exact .inr ⟨y, List.mem_append_left _ hy, h⟩
        · exact .inr ⟨x, List.mem_append_left _ (h1 x (by simp)), (fresh_mem.1 hz).1⟩)
    exact ⟨fun z hz => this.1 z (List.mem_append_left _ hz), this.2⟩

theorem live_root {F : Func} {x : Item} (h : x ∈ F.roots) (hu : x ∈ F.items) : x ∈ F.live := by
  unfold Func.live
  exact (process_spec F.deps F.items F.roots _ _ (fun _ h => h) (fun _ h => .inl h)
    (fun _ h => .inl (fresh_mem.1 h).1)).1 x (fresh_mem.2 ⟨h, hu, by simp⟩)

theorem live_deps {F : Func} {x y : Item} (h : x ∈ F.live) (hy : y ∈ F.deps x) (hu : y ∈ F.items) :
    y ∈ F.live := by
  unfold Func.live at h ⊢
  exact (process_spec F.deps F.items F.roots _ _ (fun _ h => h) (fun _ h => .inl h)
    (fun _ h => .inl (fresh_mem.1 h).1)).2.1 x h y hy hu

theorem live_why {F : Func} {x : Item} (h : x ∈ F.live) :
    x ∈ F.roots ∨ ∃ y ∈ F.live, x ∈ F.deps y := by
  unfold Func.live at h ⊢
  exact (process_spec F.deps F.items F.roots _ _ (fun _ h => h) (fun _ h => .inl h)
    (fun _ h => .inl (fresh_mem.1 h).1)).2.2 x h

/-! ## Looking things up -/

theorem find_map {α : Type} (f : α → Id) : ∀ {l : List α} {a : α}, (l.map f).Nodup → a ∈ l →
    l.find? (fun x => f x == f a) = some a
  | x :: l, a, hn, ha => by
    simp only [List.map_cons, List.nodup_cons, List.mem_map, not_exists, not_and] at hn
    rcases List.mem_cons.1 ha with rfl | ha
    · simp
    · rw [List.find?_cons]
      have : f x ≠ f a := fun e => hn.1 a ha e.symm
      rw [beq_false_of_ne this]
      exact find_map f (by simpa using hn.2) ha

section
variable {F : Func} (hv : Valid F)
include hv

theorem block_eq {B : Block} (h : B ∈ F.order) : F.block B.id = some B := find_map _ hv.labels h

theorem find_eq {i : Inst} (h : i ∈ F.insts) : F.find i.id = some i := find_map _ hv.ids h

omit hv in
theorem block_mem {b : Id} {B : Block} (h : F.block b = some B) : B ∈ F.order ∧ B.id = b := by
  refine ⟨List.mem_of_find?_eq_some h, ?_⟩
  have := List.find?_some h
  simpa using this

omit hv in
theorem find_mem {i : Id} {u : Inst} (h : F.find i = some u) : u ∈ F.insts ∧ u.id = i := by
  refine ⟨List.mem_of_find?_eq_some h, ?_⟩
  have := List.find?_some h
  simpa using this

omit hv in
theorem inst_mem {B : Block} {i : Inst} (hB : B ∈ F.order) (hi : i ∈ B.insts) : i ∈ F.insts := by
  simp only [Func.insts, List.mem_flatMap]
  exact ⟨B, hB, hi⟩

theorem blockOf_aux : ∀ (l : List Block) (B : Block) (i : Inst),
    ((l.flatMap Block.insts).map (·.id)).Nodup → B ∈ l → i ∈ B.insts →
    l.find? (fun b => b.insts.any (·.id == i.id)) = some B := by
  intro l
  induction l with
  | nil => intro B i _ h; cases h
  | cons b l ih =>
    intro B i hn hB hi
    simp only [List.flatMap_cons, List.map_append] at hn
    have hn' := List.nodup_append.1 hn
    rw [List.find?_cons]
    rcases List.mem_cons.1 hB with rfl | hB
    · have : (B.insts.any (·.id == i.id)) = true := List.any_eq_true.2 ⟨i, hi, by simp⟩
      simp [this]
    · have : (b.insts.any (·.id == i.id)) = false := by
        cases h : b.insts.any (·.id == i.id) with
        | false => rfl
        | true =>
          obtain ⟨j, hj, he⟩ := List.any_eq_true.1 h
          have he : j.id = i.id := by simpa using he
          exact absurd he (hn'.2.2 j.id (List.mem_map.2 ⟨j, hj, rfl⟩) i.id
            (List.mem_map.2 ⟨i, List.mem_flatMap.2 ⟨B, hB, hi⟩, rfl⟩))
      simp [this, ih B i hn'.2.1 hB hi]

theorem blockOf_eq {B : Block} {i : Inst} (hB : B ∈ F.order) (hi : i ∈ B.insts) :
    F.blockOf i.id = some B := blockOf_aux hv F.order B i hv.ids hB hi

omit hv in
theorem item_block {B : Block} (hB : B ∈ F.order) :
    Item.label B.id ∈ F.items ∧ Item.merge B.id ∈ F.items ∧ Item.term B.id ∈ F.items := by
  simp only [Func.items, List.mem_append, List.mem_flatMap]
  exact ⟨.inl ⟨B, hB, by simp⟩, .inl ⟨B, hB, by simp⟩, .inl ⟨B, hB, by simp⟩⟩

omit hv in
theorem item_label {b : Id} (h : Label F b) : Item.label b ∈ F.items := by
  obtain ⟨B, hB, rfl⟩ := h
  exact (item_block hB).1

omit hv in
theorem item_inst {i : Inst} (h : i ∈ F.insts) : Item.inst i.id ∈ F.items := by
  simp only [Func.insts, List.mem_flatMap] at h
  obtain ⟨B, hB, hi⟩ := h
  simp only [Func.items, List.mem_append, List.mem_flatMap]
  exact .inl ⟨B, hB, .inr (List.mem_map.2 ⟨i, hi, rfl⟩)⟩

theorem lookup_mem' {β : Type} : ∀ {l : List (Id × β)} {o : Id}, (l.lookup o).isSome → ∃ v ∈ l, v.1 = o
  | [], o, h => by simp at h
  | (a, b) :: l, o, h => by
    rw [List.lookup_cons] at h
    by_cases ho : o = a
    · subst ho; exact ⟨_, List.mem_cons_self, rfl⟩
    · rw [beq_false_of_ne ho] at h
      obtain ⟨v, hv', e⟩ := lookup_mem' h
      exact ⟨v, List.mem_cons_of_mem _ hv', e⟩

theorem item_declared {o : Id} (h : Declared F o) : Item.inst o ∈ F.items := by
  rcases h with ⟨i, hi, rfl⟩ | h | h | h
  · exact item_inst hi
  · obtain ⟨v, hv', e⟩ := lookup_mem' hv h
    simp only [Func.items, List.mem_append, List.mem_map]
    exact .inr (.inl (.inl ⟨v, hv', by rw [e]⟩))
  · obtain ⟨v, hv', e⟩ := List.mem_map.1 h
    simp only [Func.items, List.mem_append, List.mem_map]
    exact .inr (.inl (.inr ⟨v, hv', by rw [← e]⟩))
  · simp only [Func.items, List.mem_append, List.mem_map]
    exact .inr (.inr ⟨o, h, rfl⟩)

/-! ## What being live brings -/

theorem live_ops {i : Inst} (h : i ∈ F.insts) (hl : Item.inst i.id ∈ F.live) {o : Id} (ho : o ∈ i.kind.ops) :
    Item.inst o ∈ F.live := by
  refine live_deps hl ?_ (item_declared hv (hv.ops i h o ho))
  simp only [Func.deps, find_eq hv h, List.mem_append, List.mem_map]
  exact .inl (.inl (.inl ⟨o, ho, rfl⟩))

theorem live_labels {i : Inst} (h : i ∈ F.insts) (hl : Item.inst i.id ∈ F.live) {o : Id}
    (ho : o ∈ i.kind.labels) : Item.label o ∈ F.live := by
  refine live_deps hl ?_ (item_label (hv.phi_labels i h o ho))
  simp only [Func.deps, find_eq hv h, List.mem_append, List.mem_map]
  exact .inl (.inl (.inr ⟨o, ho, rfl⟩))

/-- Something of the block is live. -/
inductive Alive (F : Func) (B : Block) : Bool → Prop where
  | label : Item.label B.id ∈ F.live → Alive F B true
  | merge : Item.merge B.id ∈ F.live → Alive F B false
  | term : Item.term B.id ∈ F.live → Alive F B false
  | inst {i} : i ∈ B.insts → Item.inst i.id ∈ F.live → Alive F B false

theorem alive_deps {B : Block} (hB : B ∈ F.order) {l : Bool} (h : Alive F B l) {y : Item}
    (hy : y ∈ F.blockDeps B l false) (hu : y ∈ F.items) : y ∈ F.live := by
  have hsub : ∀ l, F.blockDeps B l false ⊆ F.blockDeps B l true := by
    intro l z hz
    simp only [Func.blockDeps, List.mem_cons, List.mem_append] at hz ⊢
    rcases hz with h | ((h | h) | h) | h
    · exact .inl h
    · exact .inr (.inl (.inl (.inl h)))
    · exact .inr (.inl (.inl (.inr h)))
    · exact .inr (.inl (.inr h))
    · simp at h
  cases h with
  | label h => exact live_deps h (by simpa only [Func.deps, block_eq hv hB] using hy) hu
  | merge h =>
    refine live_deps h ?_ hu
    simp only [Func.deps, block_eq hv hB]
    exact List.mem_append_right _ (hsub _ hy)
  | term h =>
    refine live_deps h ?_ hu
    simp only [Func.deps, block_eq hv hB]
    exact List.mem_append_right _ hy
  | inst hi h =>
    refine live_deps h ?_ hu
    simp only [Func.deps, find_eq hv (inst_mem hB hi), blockOf_eq hv hB hi]
    exact List.mem_append_left _ (List.mem_append_right _ hy)

theorem alive_label {B : Block} (hB : B ∈ F.order) {l : Bool} (h : Alive F B l) : Item.label B.id ∈ F.live :=
  alive_deps hv hB h (by simp [Func.blockDeps]) (item_block hB).1

theorem alive_term {B : Block} (hB : B ∈ F.order) {l : Bool} (h : Alive F B l) (hm : B.merge = none) :
    Item.term B.id ∈ F.live :=
  alive_deps hv hB h (by simp [Func.blockDeps, hm]) (item_block hB).2.2

omit hv in
theorem merge_label (g : Merge) : g.block ∈ g.labels := by
  cases g <;> simp [Merge.block, Merge.labels]

theorem alive_merge {B : Block} (hB : B ∈ F.order) {l : Bool} (h : Alive F B l) {g : Merge}
    (hm : B.merge = some g) : Item.label g.block ∈ F.live :=
  alive_deps hv hB h (by simp [Func.blockDeps, hm])
    (item_label (hv.merges B hB g hm _ (merge_label g)))

theorem alive_loop {B : Block} (hB : B ∈ F.order) (h : Alive F B false) (hm : B.isLoop = true) :
    Item.term B.id ∈ F.live ∧ Item.merge B.id ∈ F.live :=
  ⟨alive_deps hv hB h (by simp [Func.blockDeps, hm]) (item_block hB).2.2,
    alive_deps hv hB h (by simp [Func.blockDeps, hm]) (item_block hB).2.1⟩

theorem live_targets {B : Block} (hB : B ∈ F.order) (h : Item.term B.id ∈ F.live) {t : Id}
    (ht : t ∈ B.term.targets) : Item.label t ∈ F.live := by
  refine live_deps h ?_ (item_label (hv.targets B hB t ht))
  simp only [Func.deps, block_eq hv hB, List.mem_append, List.mem_map]
  exact .inl (.inr ⟨t, ht, rfl⟩)

theorem live_term_ops {B : Block} (hB : B ∈ F.order) (h : Item.term B.id ∈ F.live) {o : Id}
    (ho : o ∈ B.term.ops) : Item.inst o ∈ F.live := by
  refine live_deps h ?_ (item_declared hv (hv.term_ops B hB o ho))
  simp only [Func.deps, block_eq hv hB, List.mem_append, List.mem_map]
  exact .inl (.inl ⟨o, ho, rfl⟩)

omit hv in
theorem live_exit {B : Block} (hB : B ∈ F.order) (h : B.term.isExit = true) : Item.term B.id ∈ F.live := by
  refine live_root ?_ (item_block hB).2.2
  simp only [Func.roots, List.mem_append, List.mem_flatMap]
  exact .inr ⟨B, hB, .inr (by simp [h])⟩

omit hv in
theorem live_isRoot {i : Inst} (hi : i ∈ F.insts) (h : F.isRoot i.kind = true) :
    Item.inst i.id ∈ F.live := by
  refine live_root ?_ (item_inst hi)
  simp only [Func.insts, List.mem_flatMap] at hi
  obtain ⟨B, hB, hi⟩ := hi
  simp only [Func.roots, List.mem_append, List.mem_flatMap]
  exact .inr ⟨B, hB, .inl (List.mem_map.2 ⟨i, List.mem_filter.2 ⟨hi, by simp [h]⟩, rfl⟩)⟩

omit hv in
theorem live_entry {B : Block} {bs : List Block} (h : F.order = B :: bs) : Item.label B.id ∈ F.live := by
  refine live_root ?_ (item_block (by simp [h])).1
  simp only [Func.roots, h, List.head?_cons, List.mem_append]
  exact .inl (.inr (by simp [Func.blockDeps]))

end

end Verif.Adce
