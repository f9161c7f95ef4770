import Verif.PrivLocal.Static
/-!
# Storage classes afterwards
-/
set_option linter.unusedSimpArgs false
set_option linter.unusedVariables false
set_option linter.unusedSectionVars false
namespace Verif.PrivLocal
open Spec

/-- The result of an access chain that uses the id. -/
def chainOf (i : Id) (u : Item) : Option Id :=
  match u with
  | .inst (.chain r b ix) => if i ∈ b :: ix then some r else none
  | _ => none

def Mod.chains (m : Mod) (i : Id) : List Id := m.fns.flatMap fun f => f.items.filterMap (chainOf i)

theorem mem_chains {m : Mod} {i r : Id} :
    r ∈ m.chains i ↔ ∃ g b ix, (g, Item.inst (.chain r b ix)) ∈ m.items ∧ i ∈ b :: ix := by
  simp only [Mod.chains, List.mem_flatMap, List.mem_filterMap]
  constructor
  · rintro ⟨f, hf, u, hu, h⟩
    cases u with
    | inst j =>
      cases j with
      | chain r' b ix =>
        simp only [chainOf] at h
        split at h
        · cases h
          exact ⟨f.id, b, ix, mem_items.2 ⟨f, hf, rfl, hu⟩, by assumption⟩
        · cases h
      | _ => cases h
    | _ => cases h
  · rintro ⟨g, b, ix, h, hi⟩
    obtain ⟨f, hf, _, hu⟩ := mem_items.1 h
    exact ⟨f, hf, _, hu, by simp only [chainOf, if_pos hi]⟩

/-- What the update does with one access chain. -/
def one (m : Mod) (k : Nat) (c : Id → Option Class) (r : Id) : Id → Option Class :=
  m.updateUses k r fun j => if j = r then some .function else c j

theorem foldl_users (m : Mod) (k : Nat) (i : Id) (l : List (Id × Item)) (c : Id → Option Class) :
    (l.filter fun u => decide (i ∈ u.2.ops)).foldl (fun c u => match u.2 with
      | .inst (.chain r _ _) => m.updateUses k r (fun j => if j = r then some .function else c j)
      | _ => c) c = (l.filterMap fun u => chainOf i u.2).foldl (one m k) c := by
  induction l generalizing c with
  | nil => rfl
  | cons u l ih =>
    obtain ⟨g, u⟩ := u
    cases u with
    | inst j =>
      cases j with
      | chain r b ix =>
        by_cases h : i ∈ b :: ix
        · rw [List.filter_cons_of_pos (by simpa [Item.ops] using h),
            List.filterMap_cons_some (b := r) (by simp only [chainOf, if_pos h]), List.foldl_cons,
            List.foldl_cons]
          exact ih _
        · rw [List.filter_cons_of_neg (by simpa [Item.ops] using h),
            List.filterMap_cons_none (by simp only [chainOf, if_neg h])]
          exact ih _
      | _ =>
        rw [List.filterMap_cons_none (by rfl), ← ih, List.filter_cons]
        split <;> rfl
    | _ =>
      rw [List.filterMap_cons_none (by rfl), ← ih, List.filter_cons]
      split <;> rfl

theorem updateUses_succ (m : Mod) (k : Nat) (i : Id) (c : Id → Option Class) :
    m.updateUses (k + 1) i c = (m.chains i).foldl (one m k) c := by
  have h : m.chains i = m.items.filterMap fun u => chainOf i u.2 := by
    rw [Mod.items, List.filterMap_flatMap, Mod.chains]
    congr 1
    funext f
    rw [List.filterMap_map]
    rfl
  rw [h, ← foldl_users]
  rfl

/-- The ids that get another type. -/
def Mod.closure (m : Mod) : Nat → Id → List Id
  | 0, _ => []
  | k + 1, i => (m.chains i).flatMap fun r => r :: m.closure k r

theorem updateUses_eq (m : Mod) (k : Nat) (i : Id) (c : Id → Option Class) (j : Id) :
    m.updateUses k i c j = if j ∈ m.closure k i then some .function else c j := by
  induction k generalizing i c with
  | zero => simp [Mod.updateUses, Mod.closure]
  | succ k ih =>
    rw [updateUses_succ, Mod.closure]
    generalize m.chains i = l
    induction l generalizing c with
    | nil => simp
    | cons r l ihl =>
      rw [List.foldl_cons, ihl, List.flatMap_cons]
      simp only [one, ih, List.mem_append, List.mem_cons]
      by_cases h1 : j ∈ l.flatMap fun r => r :: m.closure k r
      · rw [if_pos h1, if_pos (.inr h1)]
      · by_cases h2 : j ∈ m.closure k r
        · rw [if_neg h1, if_pos h2, if_pos (.inl (.inr h2))]
        · by_cases h3 : j = r
          · rw [if_neg h1, if_neg h2, if_pos h3, if_pos (.inl (.inl h3))]
          · rw [if_neg h1, if_neg h2, if_neg h3, if_neg]
            rintro ((h | h) | h)
            · exact h3 h
            · exact h2 h
            · exact h1 h

theorem closure_congr {m m' : Mod} (h : ∀ i, m.chains i = m'.chains i) (k : Nat) (i : Id) :
    m.closure k i = m'.closure k i := by
  induction k generalizing i with
  | zero => rfl
  | succ k ih =>
    rw [Mod.closure, Mod.closure, h]
    congr 1
    funext r
    rw [ih]

theorem chains_move (n : Nat) (m : Mod) (p : Var × Id) (i : Id) : (Mod.move n m p).chains i = m.chains i := by
  simp only [Mod.chains, Mod.move]
  rw [List.flatMap_map]
  congr 1
  funext g
  simp only [place]
  split
  · simp only [Fn.items, List.map_cons, List.cons_append]
    rw [List.filterMap_cons_none (by rfl)]
  · rfl

theorem moves_cls (n : Nat) (T : List (Var × Id)) (m : Mod) (j : Id) :
    (T.foldl (Mod.move n) m).cls j =
      if ∃ p ∈ T, j = p.1.id ∨ j ∈ m.closure n p.1.id then some .function else m.cls j := by
  induction T generalizing m with
  | nil => simp
  | cons p T ih =>
    rw [List.foldl_cons, ih]
    have hc : ∀ i, (Mod.move n m p).closure n i = m.closure n i := closure_congr (chains_move n m p) n
    simp only [hc]
    by_cases h1 : ∃ q ∈ T, j = q.1.id ∨ j ∈ m.closure n q.1.id
    · obtain ⟨q, hq, h⟩ := h1
      rw [if_pos ⟨q, hq, h⟩, if_pos ⟨q, List.mem_cons_of_mem _ hq, h⟩]
    · rw [if_neg h1]
      simp only [Mod.move, updateUses_eq]
      by_cases h2 : j ∈ m.closure n p.1.id
      · rw [if_pos h2, if_pos ⟨p, List.mem_cons_self, .inr h2⟩]
      · rw [if_neg h2]
        by_cases h3 : j = p.1.id
        · rw [if_pos h3, if_pos ⟨p, List.mem_cons_self, .inl h3⟩]
        · rw [if_neg h3, if_neg]
          rintro ⟨q, hq, h⟩
          rcases List.mem_cons.1 hq with e | hq
          · rw [e] at h
            rcases h with h | h
            · exact h3 h
            · exact h2 h
          · exact h1 ⟨q, hq, h⟩

/-- From an address to the address of a part. -/
inductive Path (m : Mod) : Id → Id → Prop where
  | refl (i) : Path m i i
  | step {b r j g ix} : (g, Item.inst (.chain r b ix)) ∈ m.items → Path m r j → Path m b j

theorem Path.snoc {m : Mod} {i b : Id} (h : Path m i b) {g r : Id} {ix : List Id}
    (hc : (g, Item.inst (.chain r b ix)) ∈ m.items) : Path m i r := by
  induction h with
  | refl i => exact .step hc (.refl _)
  | step h1 _ ih => exact .step h1 (ih hc)

theorem Der.path {m : Mod} {n : Nat} {v : Var} {f i : Id} (h : Der m n v f i) : Path m v.id i := by
  induction h with
  | base _ => exact .refl _
  | chain _ hc ih => exact ih.snoc hc

theorem path_closure {m : Mod} {k : Nat} {i j : Id} (hv : ∀ u ∈ m.users i, m.valid k u.2 i = true)
    (h : Path m i j) : j = i ∨ j ∈ m.closure k i := by
  induction h generalizing k with
  | refl i => exact .inl rfl
  | @step b r j g ix hc _ ih =>
    right
    have h1 := hv (g, _) (mem_users.2 ⟨hc, by simp [Item.ops]⟩)
    cases k with
    | zero => simp [Mod.valid] at h1
    | succ k =>
      simp only [Mod.valid, List.all_eq_true] at h1
      rw [Mod.closure, List.mem_flatMap]
      refine ⟨r, mem_chains.2 ⟨g, b, ix, hc, List.mem_cons_self⟩, ?_⟩
      rcases ih h1 with e | h
      · rw [e]; exact List.mem_cons_self
      · exact List.mem_cons_of_mem _ h

theorem closure_der {m : Mod} (ht : Typed m) {n k : Nat} {v : Var} {f i j : Id} (hd : Der m n v f i)
    (hi : m.cls i = some .priv) (h : j ∈ m.closure k i) : Der m n v f j ∧ m.cls j = some .priv := by
  induction k generalizing i with
  | zero => cases h
  | succ k ih =>
    rw [Mod.closure, List.mem_flatMap] at h
    obtain ⟨r, hr, hj⟩ := h
    obtain ⟨g, b, ix, hc, hib⟩ := mem_chains.1 hr
    obtain ⟨t1, t2⟩ := ht.chain g r b ix hc
    have e : i = b := by
      rcases List.mem_cons.1 hib with e | h
      · exact e
      · rw [t2 i h] at hi; cases hi
    rw [e] at hd hi
    have hrd : Der m n v f r := hd.chain hc
    have hrc : m.cls r = some .priv := by rw [t1, hi]
    rcases List.mem_cons.1 hj with e | hj
    · rw [e]; exact ⟨hrd, hrc⟩
    · exact ih hrd hrc hj

theorem run_cls {m : Mod} (n : Nat) (ha : m.addresses = false) (ht : Typed m) (j : Id) :
    ((∃ v f, Der m n v f j) → (m.run n).cls j = some .function ∧ m.cls j = some .priv) ∧
    ((¬ ∃ v f, Der m n v f j) → (m.run n).cls j = m.cls j) := by
  have h : (m.run n).cls j = ((m.toMove n).foldl (Mod.move n) m).cls j := by
    rw [Mod.run, if_neg (by simp [ha]), Mod.trim]
    split <;> rfl
  have hp : ∀ v f, (v, f) ∈ m.toMove n → m.cls v.id = some .priv := by
    intro v f h0
    obtain ⟨h1, h2, _⟩ := mem_toMove.1 h0
    rw [(ht.globals v h1).2, h2]
  rw [h, moves_cls]
  constructor
  · rintro ⟨v, f, hd⟩
    have h0 := hd.moved
    have h1 := ((local_iff _ _ _ _).1 (mem_toMove.1 h0).2.2).2
    have h2 := path_closure (fun u hu => (h1 u hu).1) hd.path
    refine ⟨if_pos ⟨(v, f), h0, h2⟩, ?_⟩
    rcases h2 with e | h2
    · rw [e]; exact hp v f h0
    · exact (closure_der ht (.base h0) (hp v f h0) h2).2
  · intro hn
    rw [if_neg]
    rintro ⟨⟨v, f⟩, h0, e | h2⟩
    · exact hn ⟨v, f, e ▸ Der.base h0⟩
    · exact hn ⟨v, f, (closure_der ht (.base h0) (hp v f h0) h2).1⟩

theorem run_items {m : Mod} (n : Nat) (ha : m.addresses = false) {g : Id} {u : Item} :
    (g, u) ∈ (m.run n).items ↔ (g, u) ∈ m.items ∨
      ∃ v, (v, g) ∈ m.toMove n ∧ u = .var { v with cls := .function } ∧ ∃ f ∈ m.fns, f.id = g := by
  rw [mem_items, mem_items, run_fns n ha]
  simp only [List.mem_map]
  constructor
  · rintro ⟨_, ⟨f, hf, rfl⟩, e, hu⟩
    simp only at e
    simp only [Fn.items, List.map_append, List.mem_append, List.mem_map] at hu
    rcases hu with (⟨w, hw, rfl⟩ | ⟨w, hw, rfl⟩) | hu
    · obtain ⟨v, h0, rfl⟩ := mem_added.1 hw
      exact .inr ⟨v, e ▸ h0, rfl, f, hf, e⟩
    · exact .inl ⟨f, hf, e, List.mem_append_left _ (List.mem_map.2 ⟨w, hw, rfl⟩)⟩
    · exact .inl ⟨f, hf, e, List.mem_append_right _ hu⟩
  · rintro (⟨f, hf, e, hu⟩ | ⟨v, h0, rfl, f, hf, e⟩)
    · refine ⟨_, ⟨f, hf, rfl⟩, e, ?_⟩
      simp only [Fn.items, List.map_append, List.mem_append] at hu ⊢
      rcases hu with hu | hu
      · exact .inl (.inr hu)
      · exact .inr hu
    · refine ⟨_, ⟨f, hf, rfl⟩, e, ?_⟩
      simp only [Fn.items, List.map_append, List.mem_append]
      exact .inl (.inl (List.mem_map.2 ⟨_, mem_added.2 ⟨v, e ▸ h0, rfl⟩, rfl⟩))

theorem typed_run {m : Mod} (n : Nat) (ha : m.addresses = false) (hn : (Mod.allDefs m).Nodup) (ht : Typed m) :
    Typed (m.run n) := by
  have hc := fun j => run_cls n ha ht j
  have hitem : ∀ {g j}, (g, Item.inst j) ∈ (m.run n).items → (g, Item.inst j) ∈ m.items := by
    intro g j h
    rcases (run_items n ha).1 h with h | ⟨_, _, e, _⟩
    · exact h
    · cases e
  refine ⟨?_, ?_, ?_, ?_, ?_⟩
  · intro w hw
    rw [run_globals n ha, List.mem_filter] at hw
    obtain ⟨h1, h2⟩ := hw
    have hnd : ¬ ∃ v f, Der m n v f w.id := by
      rintro ⟨v, f, hd⟩
      have hm : w.id = v.id → False := by
        intro e
        simp only [decide_eq_true_eq] at h2
        exact h2 (List.mem_map.2 ⟨(v, f), hd.moved, e.symm⟩)
      generalize e : w.id = i at hd hm
      cases hd with
      | base h => exact hm rfl
      | chain _ hcc => exact global_not_def hn h1 hcc (by simp [defs, e])
    rw [(hc w.id).2 hnd]
    exact ht.globals w h1
  · intro f hf w hw
    rw [run_fns n ha, List.mem_map] at hf
    obtain ⟨g, hg, rfl⟩ := hf
    rcases List.mem_append.1 hw with hw | hw
    · obtain ⟨v, h0, rfl⟩ := mem_added.1 hw
      exact ⟨rfl, ((hc v.id).1 ⟨v, _, .base h0⟩).1⟩
    · obtain ⟨t1, t2⟩ := ht.locals g hg w hw
      refine ⟨t1, ?_⟩
      by_cases hd : ∃ v f, Der m n v f w.id
      · exact ((hc w.id).1 hd).1
      · rw [(hc w.id).2 hd, t2]
  · intro g r b ix h
    have h := hitem h
    obtain ⟨t1, t2⟩ := ht.chain g r b ix h
    constructor
    · by_cases hb : ∃ v f, Der m n v f b
      · obtain ⟨v, f, hb⟩ := hb
        rw [((hc b).1 ⟨v, f, hb⟩).1, ((hc r).1 ⟨v, f, hb.chain h⟩).1]
      · rw [(hc b).2 hb, (hc r).2, t1]
        rintro ⟨v, f, hr⟩
        obtain ⟨b', ix', e, hb'⟩ := hr.def_chain hn h (by simp [defs])
        simp only [Item.inst.injEq, Inst.chain.injEq] at e
        exact hb ⟨v, f, e.2.1 ▸ hb'⟩
    · intro i hi
      rw [(hc i).2, t2 i hi]
      intro hd
      have := ((hc i).1 hd).2
      rw [t2 i hi] at this
      cases this
  · intro g r b ix h
    have h := hitem h
    rw [(hc b).2, (hc r).2, ht.inChain g r b ix h]
    · rintro ⟨v, f, hr⟩
      obtain ⟨b', ix', e, hb'⟩ := hr.def_chain hn h (by simp [defs])
      cases e
    · rintro ⟨v, f, hb⟩
      exact (hb.fine h (by simp [Item.ops])).elim
  · intro g r x h
    have h := hitem h
    rw [(hc x).2, (hc r).2, ht.copy g r x h]
    · rintro ⟨v, f, hr⟩
      obtain ⟨b', ix', e, hb'⟩ := hr.def_chain hn h (by simp [defs])
      cases e
    · rintro ⟨v, f, hb⟩
      exact (hb.fine h (by simp [Item.ops])).elim

end Verif.PrivLocal
