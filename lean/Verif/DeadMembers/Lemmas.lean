import Verif.DeadMembers.Spec
/-!
# Sets of members, marking, and values
-/
set_option linter.unusedSimpArgs false
set_option linter.unusedVariables false
namespace Verif.DeadMembers
open Spec

abbrev Asc (l : List Nat) : Prop := l.Pairwise (· < ·)

theorem mem_setInsert {i j : Nat} {l : List Nat} : j ∈ setInsert i l ↔ j = i ∨ j ∈ l := by
  induction l with
  | nil => simp [setInsert]
  | cons a l ih =>
    unfold setInsert
    split
    · simp
    · split
      · rename_i h; subst h; simp
      · simp only [List.mem_cons, ih]; grind

theorem setInsert_asc {i : Nat} {l : List Nat} (h : Asc l) : Asc (setInsert i l) := by
  induction l with
  | nil => simp [setInsert]
  | cons a l ih =>
    obtain ⟨h1, h2⟩ := List.pairwise_cons.1 h
    unfold setInsert
    split
    · rename_i hi
      refine List.pairwise_cons.2 ⟨?_, h⟩
      intro z hz
      rcases List.mem_cons.1 hz with rfl | hz
      · exact hi
      · have := h1 z hz; omega
    · split
      · exact h
      · refine List.pairwise_cons.2 ⟨?_, ih h2⟩
        intro z hz
        rcases mem_setInsert.1 hz with rfl | hz
        · omega
        · exact h1 z hz

theorem asc_ext {l r : List Nat} (hl : Asc l) (hr : Asc r) (h : ∀ x, x ∈ l ↔ x ∈ r) : l = r := by
  induction l generalizing r with
  | nil =>
    cases r with
    | nil => rfl
    | cons b r => exact absurd ((h b).2 (by simp)) (by simp)
  | cons a l ih =>
    cases r with
    | nil => exact absurd ((h a).1 (by simp)) (by simp)
    | cons b r =>
      obtain ⟨h1, h2⟩ := List.pairwise_cons.1 hl
      obtain ⟨k1, k2⟩ := List.pairwise_cons.1 hr
      have e : a = b := by
        have ha := (h a).1 (by simp)
        have hb := (h b).2 (by simp)
        rcases List.mem_cons.1 ha with e | ha
        · exact e
        · rcases List.mem_cons.1 hb with e | hb
          · exact e.symm
          · have := h1 b hb; have := k1 a ha; omega
      subst e
      rw [ih h2 k2]
      intro x
      have := h x
      simp only [List.mem_cons] at this
      constructor
      · intro hx
        have hne := h1 x hx
        rcases this.1 (.inr hx) with e | h'
        · omega
        · exact h'
      · intro hx
        have hne := k1 x hx
        rcases this.2 (.inr hx) with e | h'
        · omega
        · exact h'

theorem asc_length {l : List Nat} {n : Nat} (hl : Asc l) (hn : ∀ x ∈ l, x < n)
    (he : l.length = n) : l = List.range n := by
  have ge : ∀ (l : List Nat) (b : Nat), Asc l → (∀ x ∈ l, b ≤ x) → ∀ k (h : k < l.length),
      b + k ≤ l[k] := by
    intro l
    induction l with
    | nil => intro b _ _ k h; simp at h
    | cons a l ih =>
      intro b h hb k hk
      obtain ⟨h1, h2⟩ := List.pairwise_cons.1 h
      cases k with
      | zero => simpa using hb a (by simp)
      | succ k =>
        have hba := hb a (by simp)
        have := ih (b + 1) h2 (fun x hx => by have := h1 x hx; omega) k (by simpa using hk)
        simp only [List.getElem_cons_succ]
        omega
  have le : ∀ (l : List Nat), Asc l → (∀ x ∈ l, x < n) → ∀ k (h : k < l.length),
      l[k] + (l.length - k) ≤ n := by
    intro l
    induction l with
    | nil => intro _ _ k h; simp at h
    | cons a l ih =>
      intro h hb k hk
      obtain ⟨h1, h2⟩ := List.pairwise_cons.1 h
      have ih := ih h2 fun x hx => hb x (by simp [hx])
      cases k with
      | zero =>
        cases l with
        | nil => have := hb a (by simp); simp; omega
        | cons c l =>
          have := ih 0 (by simp)
          have := h1 c (by simp)
          simp at *
          omega
      | succ k =>
        have := ih k (by simpa using hk)
        simp only [List.getElem_cons_succ, List.length_cons]
        omega
  apply List.ext_getElem
  · simp [he]
  · intro k h1 h2
    have := ge l 0 hl (by simp) k h1
    have := le l hl hn k h1
    simp
    omega

/-- What the sets are. -/
def Inv (ty : Types) (u : Used) : Prop :=
  ∀ t ms, ty t = .struct ms → Asc (u t) ∧ ∀ i ∈ u t, i < ms.length

def Le (u u' : Used) : Prop := ∀ t i, i ∈ u t → i ∈ u' t

theorem Le.refl (u : Used) : Le u u := fun _ _ h => h
theorem Le.trans {u v w : Used} (h : Le u v) (k : Le v w) : Le u w := fun t i x => k t i (h t i x)

theorem mem_mark {u : Used} {t i s j : Nat} : j ∈ mark u t i s ↔ j ∈ u s ∨ s = t ∧ j = i := by
  unfold mark
  by_cases h : s = t
  · subst h; simp [mem_setInsert]; grind
  · simp [h]

theorem mark_le (u : Used) (t i : Nat) : Le u (mark u t i) := fun _ _ h => mem_mark.2 (.inl h)

theorem mark_inv {ty : Types} {u : Used} (h : Inv ty u) {t i : Nat} {ms : List Nat}
    (ht : ty t = .struct ms) (hi : i < ms.length) : Inv ty (mark u t i) := by
  intro s ms' hs
  obtain ⟨h1, h2⟩ := h s ms' hs
  refine ⟨?_, ?_⟩
  · unfold mark
    split
    · rename_i e; subst e; exact setInsert_asc h1
    · exact h1
  · intro j hj
    rcases mem_mark.1 hj with hj | ⟨rfl, rfl⟩
    · exact h2 j hj
    · rw [ht] at hs; cases hs; exact hi

/-- All members are marked, at all depths. -/
inductive Full (ty : Types) (u : Used) : Nat → Prop where
  | leaf {t} : ty t = .leaf → Full ty u t
  | vec {t e} : ty t = .vec e → Full ty u t
  | arr {t e} : ty t = .arr e → Full ty u e → Full ty u t
  | struct {t ms} : ty t = .struct ms → (∀ i, i < ms.length → i ∈ u t) →
      (∀ x ∈ ms, Full ty u x) → Full ty u t

theorem Full.mono {ty : Types} {u u' : Used} (h : Le u u') {t : Nat} (k : Full ty u t) :
    Full ty u' t := by
  induction k with
  | leaf e => exact .leaf e
  | vec e => exact .vec e
  | arr e _ ih => exact .arr e ih
  | struct e h1 _ ih => exact .struct e (fun i hi => h _ _ (h1 i hi)) ih

theorem markFull_le (ty : Types) (n t : Nat) (u : Used) : Le u (markFull ty n t u) := by
  induction n generalizing t u with
  | zero => exact .refl u
  | succ n ih =>
    unfold markFull
    split
    · rename_i ms _
      generalize ms.zipIdx = l
      induction l generalizing u with
      | nil => exact .refl u
      | cons x l ihl => exact ((mark_le u t x.2).trans (ih x.1 _)).trans (ihl _)
    · exact ih _ _
    · exact .refl u

theorem markFull_inv (ty : Types) (n t : Nat) (u : Used) (h : Inv ty u) :
    Inv ty (markFull ty n t u) := by
  induction n generalizing t u with
  | zero => exact h
  | succ n ih =>
    unfold markFull
    split
    · rename_i ms ht
      have hm : ∀ x ∈ ms.zipIdx, x.2 < ms.length := by
        intro x hx
        have := List.mem_zipIdx_iff_getElem?.1 hx
        exact (List.getElem?_eq_some_iff.1 this).1
      revert hm
      generalize ms.zipIdx = l
      intro hm
      induction l generalizing u with
      | nil => exact h
      | cons x l ihl =>
        exact ihl _ (ih x.1 _ (mark_inv h ht (hm x (by simp)))) fun y hy => hm y (by simp [hy])
    · exact ih _ _ h
    · exact h

theorem markFull_full {ty : Types} {r : Nat → Nat}
    (hs : ∀ t ms x, ty t = .struct ms → x ∈ ms → r x < r t) (ha : ∀ t e, ty t = .arr e → r e < r t)
    (n t : Nat) (u : Used) (hn : r t < n) : Full ty (markFull ty n t u) t := by
  induction n generalizing t u with
  | zero => omega
  | succ n ih =>
    unfold markFull
    split
    · rename_i ms ht
      have key : ∀ (l : List (Nat × Nat)) (u : Used), (∀ x ∈ l, x.1 ∈ ms) →
          let u' := l.foldl (fun u m => markFull ty n m.1 (mark u t m.2)) u
          Le u u' ∧ ∀ x ∈ l, x.2 ∈ u' t ∧ Full ty u' x.1 := by
        intro l
        induction l with
        | nil => intro u _; exact ⟨.refl u, by simp⟩
        | cons x l ihl =>
          intro u hl
          obtain ⟨k1, k2⟩ := ihl (markFull ty n x.1 (mark u t x.2)) fun y hy => hl y (by simp [hy])
          have hle := markFull_le ty n x.1 (mark u t x.2)
          refine ⟨((mark_le u t x.2).trans hle).trans k1, ?_⟩
          intro y hy
          rcases List.mem_cons.1 hy with rfl | hy
          · refine ⟨k1 _ _ (hle _ _ (mem_mark.2 (.inr ⟨rfl, rfl⟩))), ?_⟩
            refine (ih y.1 _ ?_).mono k1
            have := hs t ms y.1 ht (hl y (by simp))
            omega
          · exact k2 y hy
      obtain ⟨k1, k2⟩ := key ms.zipIdx u fun x hx =>
        List.mem_of_getElem? (List.mem_zipIdx_iff_getElem?.1 hx)
      refine .struct ht ?_ ?_
      · intro i hi
        exact (k2 (ms[i], i) (List.mem_zipIdx_iff_getElem?.2 (by simp [hi]))).1
      · intro x hx
        obtain ⟨i, hi, rfl⟩ := List.getElem_of_mem hx
        exact (k2 (ms[i], i) (List.mem_zipIdx_iff_getElem?.2 (by simp [hi]))).2
    · rename_i e ht
      have := ha t e ht
      exact .arr ht (ih e u (by omega))
    · rename_i h1 h2
      cases ht : ty t with
      | struct ms => exact absurd ht (h1 ms)
      | arr e => exact absurd ht (h2 e)
      | vec e => exact .vec ht
      | leaf => exact .leaf ht

/-- The members on a path are marked. -/
def PathLive (ty : Types) (u : Used) : List Nat → Nat → Prop
  | [], _ => True
  | i :: p, t =>
    match ty t with
    | .struct ms => i ∈ u t ∧ PathLive ty u p (ms.getD i 0)
    | .arr e => PathLive ty u p e
    | .vec e => PathLive ty u p e
    | .leaf => True

theorem PathLive.mono {ty : Types} {u u' : Used} (h : Le u u') {p : List Nat} {t : Nat}
    (k : PathLive ty u p t) : PathLive ty u' p t := by
  induction p generalizing t with
  | nil => trivial
  | cons i p ih =>
    unfold PathLive at k ⊢
    split at k
    · exact ⟨h _ _ k.1, ih k.2⟩
    · exact ih k
    · exact ih k
    · trivial

theorem markPath_le (ty : Types) (p : List Nat) (t : Nat) (u : Used) : Le u (markPath ty p t u) := by
  induction p generalizing t u with
  | nil => exact .refl u
  | cons i p ih =>
    unfold markPath
    split
    · exact (mark_le u t i).trans (ih _ _)
    · exact ih _ _
    · exact ih _ _
    · exact .refl u

theorem markPath_live (ty : Types) (p : List Nat) (t : Nat) (u : Used) :
    PathLive ty (markPath ty p t u) p t := by
  induction p generalizing t u with
  | nil => trivial
  | cons i p ih =>
    unfold PathLive markPath
    cases ht : ty t with
    | struct ms => exact ⟨markPath_le _ _ _ _ _ _ (mem_mark.2 (.inr ⟨rfl, rfl⟩)), ih _ _⟩
    | arr e => exact ih _ _
    | vec e => exact ih _ _
    | leaf => trivial

theorem markPath_inv (ty : Types) (p : List Nat) (t : Nat) (u : Used) (h : Inv ty u) {s : Nat}
    (hp : tyAt ty p t = some s) : Inv ty (markPath ty p t u) := by
  induction p generalizing t u with
  | nil => exact h
  | cons i p ih =>
    unfold tyAt at hp
    unfold markPath
    cases ht : ty t with
    | struct ms =>
      simp only [ht] at hp ⊢
      cases hm : ms[i]? with
      | none => simp [hm] at hp
      | some m =>
        simp only [hm] at hp
        have hi := (List.getElem?_eq_some_iff.1 hm).1
        refine ih _ _ (mark_inv h ht hi) ?_
        rw [List.getD_eq_getElem?_getD, hm]
        exact hp
    | arr e => simp only [ht] at hp ⊢; exact ih _ _ h hp
    | vec e => simp only [ht] at hp ⊢; exact ih _ _ h hp
    | leaf => simp [ht] at hp

/-! ### all instructions -/

theorem fold_le {α : Type} (f : Used → α → Used) (hf : ∀ u x, Le u (f u x)) (l : List α) (u : Used) :
    Le u (l.foldl f u) := by
  induction l generalizing u with
  | nil => exact .refl u
  | cons x l ih => exact (hf u x).trans (ih _)

theorem fold_mem {α : Type} (f : Used → α → Used) (hf : ∀ u x, Le u (f u x)) {l : List α} {x : α}
    (hx : x ∈ l) (u : Used) : ∃ v, Le (f v x) (l.foldl f u) := by
  induction l generalizing u with
  | nil => simp at hx
  | cons y l ih =>
    rcases List.mem_cons.1 hx with rfl | hx
    · exact ⟨u, fold_le f hf l _⟩
    · exact ih hx _

theorem fold_inv {α : Type} {ty : Types} (f : Used → α → Used) (l : List α)
    (hf : ∀ u, ∀ x ∈ l, Inv ty u → Inv ty (f u x)) (u : Used) (h : Inv ty u) :
    Inv ty (l.foldl f u) := by
  induction l generalizing u with
  | nil => exact h
  | cons x l ih => exact ih (fun u y hy => hf u y (by simp [hy])) _ (hf u x (by simp) h)

theorem markInst_le (ty : Types) (n : Nat) (u : Used) (i : Inst) : Le u (markInst ty n u i) := by
  cases i <;> simp only [markInst] <;> first
    | exact markFull_le _ _ _ _
    | exact markPath_le _ _ _ _
    | exact mark_le _ _ _
    | exact .refl u
    | exact fold_le _ (fun u x => markFull_le ty n x u) _ _

theorem markGlobal_le (ty : Types) (n : Nat) (u : Used) (g : Global) :
    Le u (markGlobal ty n u g) := by
  cases g <;> simp only [markGlobal] <;> first
    | exact markFull_le _ _ _ _
    | exact markPath_le _ _ _ _
    | exact .refl u

theorem inst_reached (m : Mod) {i : Inst} (h : i ∈ m.insts) :
    ∃ v, Le (markInst m.ty m.depth v i) (findLive m) :=
  fold_mem _ (markInst_le _ _) h _

theorem global_reached (m : Mod) {g : Global} (h : g ∈ m.globals) :
    ∃ v, Le (markGlobal m.ty m.depth v g) (findLive m) := by
  obtain ⟨v, hv⟩ := fold_mem _ (markGlobal_le m.ty m.depth) h fun _ => []
  exact ⟨v, hv.trans (fold_le _ (markInst_le _ _) _ _)⟩

theorem findLive_inv {m : Mod} (ok : Ok m) : Inv m.ty (findLive m) := by
  refine fold_inv _ _ ?_ _ (fold_inv _ _ ?_ _ ?_)
  · intro u i hi h
    cases i with
    | store t => exact markFull_inv _ _ _ _ h
    | copyMemory t => exact markFull_inv _ _ _ _ h
    | extract t p => exact markPath_inv _ _ _ _ h (ok.paths _ hi t p (.inl rfl)).choose_spec
    | chain t p => exact markPath_inv _ _ _ _ h (ok.paths _ hi t p (.inr (.inl rfl))).choose_spec
    | ptrChain t e p =>
      exact markPath_inv _ _ _ _ h (ok.paths _ hi t p (.inr (.inr ⟨e, rfl⟩))).choose_spec
    | ret t => exact markFull_inv _ _ _ _ h
    | arrayLength t i =>
      obtain ⟨ms, h1, h2⟩ := ok.lengths t i hi
      exact mark_inv h h1 h2
    | load t => exact h
    | insert t p => exact h
    | construct t => exact h
    | other ts => exact fold_inv _ _ (fun u x _ hu => markFull_inv _ _ _ _ hu) _ h
    | untyped s p ts => exact fold_inv _ _ (fun u x _ hu => markFull_inv _ _ _ _ hu) _ h
  · intro u g hg h
    cases g with
    | inOut t => exact markFull_inv _ _ _ _ h
    | storageBuffer t => exact markFull_inv _ _ _ _ h
    | otherVar t => exact h
    | specExtract t p => exact markPath_inv _ _ _ _ h (ok.globals t p hg).choose_spec
    | physicalPtr t => exact markFull_inv _ _ _ _ h
  · intro t ms _
    exact ⟨by simp, by simp⟩

theorem seen_full {m : Mod} (ok : Ok m) {t : Nat} (h : Seen m t) : Full m.ty (findLive m) t := by
  obtain ⟨r, hd, hs, ha⟩ := ok.rank
  have full := fun t u => markFull_full hs ha m.depth t u (hd t)
  cases h with
  | store h => obtain ⟨v, hv⟩ := inst_reached m h; exact (full t v).mono hv
  | copy h => obtain ⟨v, hv⟩ := inst_reached m h; exact (full t v).mono hv
  | ret h => obtain ⟨v, hv⟩ := inst_reached m h; exact (full t v).mono hv
  | other h ht =>
    obtain ⟨v, hv⟩ := inst_reached m h
    obtain ⟨w, hw⟩ := fold_mem (fun u t => markFull m.ty m.depth t u)
      (fun u x => markFull_le m.ty m.depth x u) ht v
    exact (full t w).mono (hw.trans hv)
  | inOut h => obtain ⟨v, hv⟩ := global_reached m h; exact (full t v).mono hv
  | buffer h => obtain ⟨v, hv⟩ := global_reached m h; exact (full t v).mono hv
  | physical h => obtain ⟨v, hv⟩ := global_reached m h; exact (full t v).mono hv

/-! ### new indices -/

theorem newTypes_struct {ty : Types} {u : Used} (h : Inv ty u) {t : Nat} {ms : List Nat}
    (ht : ty t = .struct ms) : newTypes ty u t = .struct ((u t).map fun i => ms.getD i 0) := by
  unfold newTypes
  simp only [ht]
  split
  · rename_i he
    have e := asc_length (h t ms ht).1 (h t ms ht).2 he
    rw [e]
    congr 1
    apply List.ext_getElem
    · simp
    · intro k h1 h2
      simp [List.getD_eq_getElem?_getD, h1]
  · rfl

theorem newIdx_some {ty : Types} {u : Used} {t i k : Nat} {ms : List Nat} (ht : ty t = .struct ms)
    (h : newIdx ty u t i = some k) : (u t)[k]? = some i ∧ i ∈ u t := by
  unfold newIdx at h
  simp only [ht] at h
  split at h
  · rename_i hi
    simp at h
    subst h
    exact ⟨by rw [List.getElem?_eq_some_iff]; exact ⟨List.idxOf_lt_length_iff.2 hi, List.getElem_idxOf _⟩, hi⟩
  · simp at h

theorem asc_inj {l : List Nat} (h : Asc l) {a b x : Nat} (ha : l[a]? = some x) (hb : l[b]? = some x) :
    a = b := by
  obtain ⟨h1, h2⟩ := List.getElem?_eq_some_iff.1 ha
  obtain ⟨k1, k2⟩ := List.getElem?_eq_some_iff.1 hb
  rcases Nat.lt_trichotomy a b with hl | hl | hl
  · have := List.pairwise_iff_getElem.1 h a b h1 k1 hl; omega
  · exact hl
  · have := List.pairwise_iff_getElem.1 h b a k1 h1 hl; omega

theorem newIdx_iff {ty : Types} {u : Used} (hi : Inv ty u) {t i k : Nat} {ms : List Nat}
    (ht : ty t = .struct ms) : newIdx ty u t i = some k ↔ (u t)[k]? = some i := by
  refine ⟨fun h => (newIdx_some ht h).1, fun h => ?_⟩
  have hm := List.mem_of_getElem? h
  have : newIdx ty u t i = some ((u t).idxOf i) := by simp [newIdx, ht, hm]
  rw [this]
  congr 1
  exact asc_inj (hi t ms ht).1 (newIdx_some ht this).1 h

theorem newTypes_other {ty : Types} {u : Used} {t : Nat} (h : ∀ ms, ty t ≠ .struct ms) :
    newTypes ty u t = ty t ∧ ∀ i, newIdx ty u t i = some i := by
  unfold newTypes newIdx
  cases ht : ty t with
  | struct ms => exact absurd ht (h ms)
  | arr e => simp
  | vec e => simp
  | leaf => simp

/-! ### values -/

/-- Elements of vectors are vectors or scalars. -/
def VecOk (ty : Types) : Prop := ∀ t e, ty t = .vec e → ty e = .leaf ∨ ∃ e', ty e = .vec e'

theorem shrunk_simple {ty : Types} {u : Used} {t : Nat} (h : ty t = .leaf ∨ ∃ e, ty t = .vec e)
    (v : Val) : Shrunk ty u t v v := by
  rcases h with h | ⟨e, h⟩
  · exact .leaf h
  · exact .vec h

theorem get_kept {ty : Types} {u : Used} (hi : Inv ty u) (hv : VecOk ty) (p : List Nat) (t : Nat)
    {s : Nat} {v v' w : Val} (h : Shrunk ty u t v v') (hl : PathLive ty u p t)
    (hs : tyAt ty p t = some s) (hw : getAt p v = some w) :
    ∃ p' w', updPath ty u p t = some p' ∧ getAt p' v' = some w' ∧ Shrunk ty u s w w' := by
  induction p generalizing t v v' with
  | nil =>
    simp [tyAt] at hs
    simp [getAt] at hw
    subst hs hw
    exact ⟨[], v', rfl, rfl, h⟩
  | cons i p ih =>
    cases v with
    | scalar n => simp [getAt] at hw
    | comp vs =>
      simp only [getAt] at hw
      cases hx : vs[i]? with
      | none => simp [hx] at hw
      | some x =>
        simp only [hx] at hw
        generalize hv0 : Val.comp vs = v0 at h
        cases h with
        | leaf ht => simp [tyAt, ht] at hs
        | @vec _ e _ ht =>
          subst hv0
          simp only [tyAt, ht] at hs
          simp only [PathLive, ht] at hl
          obtain ⟨p', w', h1, h2, h3⟩ := ih e (v := x) (v' := x) (shrunk_simple (hv t e ht) x) hl hs hw
          obtain ⟨n1, n2⟩ := newTypes_other (ty := ty) (u := u) (t := t) (by simp [ht])
          refine ⟨i :: p', w', ?_, ?_, h3⟩
          · simp [updPath, n1, n2, ht, h1]
          · simp [getAt, hx, h2]
        | @arr _ e us us' ht hlen hrel =>
          cases hv0
          simp only [tyAt, ht] at hs
          simp only [PathLive, ht] at hl
          have hi' := (List.getElem?_eq_some_iff.1 hx).1
          have hx' : us'[i]? = some us'[i] := by simp
          obtain ⟨p', w', h1, h2, h3⟩ := ih e (hrel i x _ hx hx') hl hs hw
          obtain ⟨n1, n2⟩ := newTypes_other (ty := ty) (u := u) (t := t) (by simp [ht])
          refine ⟨i :: p', w', ?_, ?_, h3⟩
          · simp [updPath, n1, n2, ht, h1]
          · simp [getAt, hx', h2]
        | @struct _ ms us us' ht hlen hlen' hrel =>
          cases hv0
          simp only [tyAt, ht] at hs
          simp only [PathLive, ht] at hl
          cases hm : ms[i]? with
          | none => simp [hm] at hs
          | some m =>
            simp only [hm] at hs
            have hgd : ms.getD i 0 = m := by rw [List.getD_eq_getElem?_getD, hm]; rfl
            rw [hgd] at hl
            have hk : newIdx ty u t i = some ((u t).idxOf i) := by simp [newIdx, ht, hl.1]
            obtain ⟨hu, -⟩ := newIdx_some ht hk
            generalize (u t).idxOf i = k at *
            have hk' := (List.getElem?_eq_some_iff.1 hu).1
            have hx' : us'[k]? = some us'[k] := by simp
            obtain ⟨p', w', h1, h2, h3⟩ := ih m (hrel k i m x _ hu hm hx hx') hl.2 hs hw
            refine ⟨k :: p', w', ?_, ?_, h3⟩
            · have hmm : ((u t).map fun i => ms.getD i 0).getD k 0 = m := by
                rw [List.getD_eq_getElem?_getD, List.getElem?_map, hu]
                exact hgd
              simp only [updPath, hk, newTypes_struct hi ht, hmm, h1, Option.map_some]
            · simp [getAt, hx', h2]

theorem upd_simple {ty : Types} {u : Used} (hv : VecOk ty) (p : List Nat) (t : Nat) {s : Nat}
    (ht : ty t = .leaf ∨ ∃ e, ty t = .vec e) (hs : tyAt ty p t = some s) :
    updPath ty u p t = some p := by
  induction p generalizing t with
  | nil => rfl
  | cons i p ih =>
    rcases ht with ht | ⟨e, ht⟩
    · simp [tyAt, ht] at hs
    · simp only [tyAt, ht] at hs
      obtain ⟨n1, n2⟩ := newTypes_other (ty := ty) (u := u) (t := t) (by simp [ht])
      simp [updPath, n1, n2, ht, ih e (hv t e ht) hs]

/-- Replacing a part. Where a member on the path is removed, nothing of the value is left to
change. -/
theorem set_kept {ty : Types} {u : Used} (hi : Inv ty u) (hv : VecOk ty) (p : List Nat) (t : Nat)
    {s : Nat} {v v' w o o' : Val} (h : Shrunk ty u t v v') (ho : Shrunk ty u s o o')
    (hs : tyAt ty p t = some s) (hw : setAt o p v = some w) :
    (∀ p', updPath ty u p t = some p' → ∃ w', setAt o' p' v' = some w' ∧ Shrunk ty u t w w') ∧
    (updPath ty u p t = none → Shrunk ty u t w v') := by
  induction p generalizing t v v' w with
  | nil =>
    simp [tyAt] at hs
    simp [setAt] at hw
    subst hs hw
    refine ⟨?_, by simp [updPath]⟩
    intro p' hp
    simp [updPath] at hp
    subst hp
    exact ⟨o', rfl, ho⟩
  | cons i p ih =>
    cases v with
    | scalar n => simp [setAt] at hw
    | comp vs =>
      simp only [setAt] at hw
      cases hx : vs[i]? with
      | none => simp [hx] at hw
      | some x =>
        simp only [hx] at hw
        cases hy : setAt o p x with
        | none => simp [hy] at hw
        | some y =>
          simp only [hy, Option.map_some, Option.some.injEq] at hw
          subst hw
          have hi' := (List.getElem?_eq_some_iff.1 hx).1
          generalize hv0 : Val.comp vs = v0 at h
          cases h with
          | leaf ht => simp [tyAt, ht] at hs
          | @vec _ e _ ht =>
            subst hv0
            simp only [tyAt, ht] at hs
            have hup := upd_simple (u := u) hv p e (hv t e ht) hs
            obtain ⟨n1, n2⟩ := newTypes_other (ty := ty) (u := u) (t := t) (by simp [ht])
            have hup' : updPath ty u (i :: p) t = some (i :: p) := by
              simp [updPath, n1, n2, ht, hup]
            refine ⟨?_, by rw [hup']; simp⟩
            intro p' hp
            rw [hup'] at hp
            cases hp
            obtain ⟨w', k1, k2⟩ := (ih e (shrunk_simple (hv t e ht) x) hs hy).1 p hup
            refine ⟨.comp (vs.set i w'), by simp [setAt, hx, k1], ?_⟩
            have : w' = y := by
              rcases hv t e ht with he | ⟨e', he⟩
              · cases k2 with
                | leaf _ => rfl
                | vec _ => rfl
                | arr he' => rw [he] at he'; cases he'
                | struct he' => rw [he] at he'; cases he'
              · cases k2 with
                | leaf _ => rfl
                | vec _ => rfl
                | arr he' => rw [he] at he'; cases he'
                | struct he' => rw [he] at he'; cases he'
            rw [this]
            exact .vec ht
          | @arr _ e us us' ht hlen hrel =>
            cases hv0
            simp only [tyAt, ht] at hs
            have hx' : us'[i]? = some us'[i] := by simp
            obtain ⟨k1, k2⟩ := ih e (hrel i x _ hx hx') hs hy
            obtain ⟨n1, n2⟩ := newTypes_other (ty := ty) (u := u) (t := t) (by simp [ht])
            constructor
            · intro p' hp
              simp only [updPath, n1, n2, ht] at hp
              cases hq : updPath ty u p e with
              | none => simp [hq] at hp
              | some q =>
                simp only [hq, Option.map_some, Option.some.injEq] at hp
                subst hp
                obtain ⟨w', q1, q2⟩ := k1 q hq
                refine ⟨.comp (us'.set i w'), by simp [setAt, hx', q1], ?_⟩
                refine .arr ht (by simp [hlen]) ?_
                intro j a a' ha ha'
                rw [List.getElem?_set] at ha ha'
                by_cases hj : i = j
                · subst hj
                  simp at ha ha'
                  rw [← ha.2, ← ha'.2]
                  exact q2
                · simp only [hj, if_false] at ha ha'
                  exact hrel j a a' ha ha'
            · intro hp
              simp only [updPath, n1, n2, ht] at hp
              have hq : updPath ty u p e = none := by simpa using hp
              refine .arr ht (by simp [hlen]) ?_
              intro j a a' ha ha'
              rw [List.getElem?_set] at ha
              by_cases hj : i = j
              · subst hj
                simp at ha
                rw [hx'] at ha'
                cases ha'
                rw [← ha.2]
                exact k2 hq
              · simp only [hj, if_false] at ha
                exact hrel j a a' ha ha'
          | @struct _ ms us us' ht hlen hlen' hrel =>
            cases hv0
            simp only [tyAt, ht] at hs
            cases hm : ms[i]? with
            | none => simp [hm] at hs
            | some m =>
              simp only [hm] at hs
              have hgd : ms.getD i 0 = m := by rw [List.getD_eq_getElem?_getD, hm]; rfl
              by_cases hmem : i ∈ u t
              · have hk : newIdx ty u t i = some ((u t).idxOf i) := by simp [newIdx, ht, hmem]
                obtain ⟨hu, -⟩ := newIdx_some ht hk
                generalize (u t).idxOf i = k at *
                have hk' := (List.getElem?_eq_some_iff.1 hu).1
                have hx' : us'[k]? = some us'[k] := by simp
                obtain ⟨k1, k2'⟩ := ih m (hrel k i m x _ hu hm hx hx') hs hy
                have hmm : ((u t).map fun i => ms.getD i 0).getD k 0 = m := by
                  rw [List.getD_eq_getElem?_getD, List.getElem?_map, hu]
                  exact hgd
                have hup : updPath ty u (i :: p) t = (updPath ty u p m).map (k :: ·) := by
                  simp only [updPath, hk, newTypes_struct hi ht, hmm]
                rw [hup]
                constructor
                · intro p' hp
                  cases hq : updPath ty u p m with
                  | none => simp [hq] at hp
                  | some q =>
                    simp only [hq, Option.map_some, Option.some.injEq] at hp
                    subst hp
                    obtain ⟨w', q1, q2⟩ := k1 q hq
                    refine ⟨.comp (us'.set k w'), by simp [setAt, hx', q1], ?_⟩
                    refine .struct ht (by simp [hlen]) (by simp [hlen']) ?_
                    intro k2 i2 m2 a a' hu2 hm2 ha ha'
                    rw [List.getElem?_set] at ha ha'
                    by_cases hj : i = i2
                    · subst hj
                      have hkk := asc_inj (hi t ms ht).1 hu hu2
                      subst hkk
                      simp at ha ha'
                      rw [hm] at hm2
                      cases hm2
                      rw [← ha.2, ← ha'.2]
                      exact q2
                    · have hkk : k ≠ k2 := fun hkk => by
                        subst hkk; rw [hu] at hu2; cases hu2; exact hj rfl
                      simp only [hj, hkk, if_false] at ha ha'
                      exact hrel k2 i2 m2 a a' hu2 hm2 ha ha'
                · intro hp
                  have hq : updPath ty u p m = none := by simpa using hp
                  refine .struct ht (by simp [hlen]) hlen' ?_
                  intro k2 i2 m2 a a' hu2 hm2 ha ha'
                  rw [List.getElem?_set] at ha
                  by_cases hj : i = i2
                  · subst hj
                    have hkk := asc_inj (hi t ms ht).1 hu hu2
                    subst hkk
                    simp at ha
                    rw [hx'] at ha'
                    cases ha'
                    rw [hm] at hm2
                    cases hm2
                    rw [← ha.2]
                    exact k2' hq
                  · simp only [hj, if_false] at ha
                    exact hrel k2 i2 m2 a a' hu2 hm2 ha ha'
              · have hk : newIdx ty u t i = none := by simp [newIdx, ht, hmem]
                have hup : updPath ty u (i :: p) t = none := by simp only [updPath, hk]
                rw [hup]
                refine ⟨by simp, fun _ => ?_⟩
                refine .struct ht (by simp [hlen]) hlen' ?_
                intro k2 i2 m2 a a' hu2 hm2 ha ha'
                have hj : i ≠ i2 := fun hj => by
                  subst hj; exact hmem (List.mem_of_getElem? hu2)
                rw [List.getElem?_set] at ha
                simp only [hj, if_false] at ha
                exact hrel k2 i2 m2 a a' hu2 hm2 ha ha'

theorem full_same {ty : Types} {u : Used} (hi : Inv ty u) {t : Nat} {v v' : Val}
    (h : Shrunk ty u t v v') (hf : Full ty u t) : v = v' := by
  induction h with
  | leaf => rfl
  | vec => rfl
  | @arr t e vs vs' ht hlen hrel ih =>
    cases hf with
    | leaf he => rw [ht] at he; cases he
    | vec he => rw [ht] at he; cases he
    | struct he => rw [ht] at he; cases he
    | arr he hf =>
      rw [ht] at he
      cases he
      congr 1
      apply List.ext_getElem hlen
      intro k h1 h2
      exact ih k _ _ (by simp) (by simp) hf
  | @struct t ms vs vs' ht hlen hlen' hrel ih =>
    cases hf with
    | leaf he => rw [ht] at he; cases he
    | vec he => rw [ht] at he; cases he
    | arr he => rw [ht] at he; cases he
    | struct he h1 h2 =>
      rw [ht] at he
      cases he
      have e : u t = List.range ms.length :=
        asc_ext (hi t ms ht).1 List.pairwise_lt_range fun x => by
          rw [List.mem_range]; exact ⟨(hi t ms ht).2 x, h1 x⟩
      have hl : vs'.length = ms.length := by rw [hlen', e]; simp
      congr 1
      apply List.ext_getElem (by omega)
      intro k q1 q2
      exact ih k k ms[k] _ _ (by rw [e, List.getElem?_range (by omega)]) (by simp) (by simp) (by simp)
        (h2 _ (List.getElem_mem _))

theorem exists_list {P : Nat → Val → Prop} (n : Nat) (h : ∀ k, k < n → ∃ x, P k x) :
    ∃ l : List Val, l.length = n ∧ ∀ (k : Nat) x, l[k]? = some x → P k x := by
  induction n with
  | zero => exact ⟨[], rfl, by simp⟩
  | succ n ih =>
    obtain ⟨l, h1, h2⟩ := ih fun k hk => h k (by omega)
    obtain ⟨x, hx⟩ := h n (by omega)
    refine ⟨l ++ [x], by simp [h1], ?_⟩
    intro k y hy
    by_cases hk : k < n
    · rw [List.getElem?_append_left (by omega)] at hy
      exact h2 k y hy
    · rw [List.getElem?_append_right (by omega)] at hy
      have hz : k - l.length = 0 := by
        have := (List.getElem?_eq_some_iff.1 hy).1
        simp at this
        omega
      rw [hz] at hy
      simp at hy
      have : k = n := by omega
      subst this hy
      exact hx

theorem shrunk_exists {ty : Types} {u : Used} {t : Nat} {v : Val} (h : HasTy ty t v)
    (hi : Inv ty u) : ∃ v', Shrunk ty u t v v' := by
  induction h with
  | leaf ht => exact ⟨_, .leaf ht⟩
  | vec ht => exact ⟨_, .vec ht⟩
  | @arr t e vs ht _ ih =>
    obtain ⟨l, h1, h2⟩ := exists_list (P := fun k x => ∀ v, vs[k]? = some v → Shrunk ty u e v x)
      vs.length fun k hk => by
        obtain ⟨x, hx⟩ := ih k vs[k] (by simp)
        refine ⟨x, fun v hv => ?_⟩
        simp [hk] at hv
        rw [← hv]
        exact hx
    exact ⟨.comp l, .arr ht h1.symm fun i v v' hv hv' => h2 i v' hv' v hv⟩
  | @struct t ms vs ht hlen _ ih =>
    obtain ⟨l, h1, h2⟩ := exists_list (P := fun k x => ∀ i m v, (u t)[k]? = some i →
        ms[i]? = some m → vs[i]? = some v → Shrunk ty u m v x) (u t).length fun k hk => by
      have hlt := (hi t ms ht).2 (u t)[k] (List.getElem_mem _)
      obtain ⟨x, hx⟩ := ih (u t)[k] ms[(u t)[k]] vs[(u t)[k]] (by simp) (by simp)
      refine ⟨x, fun i m v q1 q2 q3 => ?_⟩
      have q1' : (u t)[k]? = some (u t)[k] := by simp
      rw [q1'] at q1
      cases q1
      simp [hlt] at q2
      rw [List.getElem?_eq_getElem (by omega)] at q3
      cases q3
      rw [← q2]
      exact hx
    exact ⟨.comp l, .struct ht hlen h1 fun k i m v v' q1 q2 q3 q4 => h2 k v' q4 i m v q1 q2 q3⟩

/-! ### operands of constructed composites -/

theorem keep_idx {α : Type} (l : List α) (s : Nat) (us : List Nat) (p : Nat → Bool) (ha : Asc us)
    (hb : ∀ i ∈ us, s ≤ i ∧ i < s + l.length) (hp : ∀ i, s ≤ i → (p i = true ↔ i ∈ us)) :
    ((l.zipIdx s).filterMap fun x => if p x.2 then some x.1 else none).length = us.length ∧
    ∀ (k i : Nat), us[k]? = some i →
      ((l.zipIdx s).filterMap fun x => if p x.2 then some x.1 else none)[k]? = l[i - s]? := by
  induction l generalizing s us with
  | nil =>
    cases us with
    | nil => simp
    | cons a us => have := hb a (by simp); simp at this; omega
  | cons a l ih =>
    rw [List.zipIdx_cons]
    by_cases hs : p s = true
    · rw [List.filterMap_cons_some (by simp [hs]; rfl)]
      have hmem := (hp s (Nat.le_refl _)).1 hs
      cases us with
      | nil => simp at hmem
      | cons b us =>
        obtain ⟨h1, h2⟩ := List.pairwise_cons.1 ha
        have e : b = s := by
          have := (hb b (by simp)).1
          rcases List.mem_cons.1 hmem with e | hm
          · exact e.symm
          · have := h1 s hm; omega
        subst e
        obtain ⟨i1, i2⟩ := ih (b + 1) us h2 (by
          intro i hi
          have := h1 i hi
          have := (hb i (by simp [hi])).2
          simp at this
          omega) (by
          intro i hi
          rw [hp i (by omega)]
          simp only [List.mem_cons]
          constructor
          · rintro (h | h)
            · omega
            · exact h
          · exact .inr)
        refine ⟨by simp only [List.length_cons]; rw [i1], ?_⟩
        intro k i hk
        cases k with
        | zero => simp at hk; subst hk; simp
        | succ k =>
          simp only [List.getElem?_cons_succ] at hk ⊢
          rw [i2 k i hk]
          have := h1 i (List.mem_of_getElem? hk)
          have e : i - b = (i - (b + 1)) + 1 := by omega
          rw [e]; simp
    · rw [List.filterMap_cons_none (by simp [hs])]
      have hnm : s ∉ us := fun h => hs ((hp s (Nat.le_refl _)).2 h)
      have hb' : ∀ i ∈ us, s + 1 ≤ i ∧ i < s + 1 + l.length := by
        intro i hi
        have := hb i hi
        have : i ≠ s := fun e => hnm (e ▸ hi)
        simp at *
        omega
      obtain ⟨i1, i2⟩ := ih (s + 1) us ha hb' fun i hi => hp i (by omega)
      refine ⟨i1, ?_⟩
      intro k i hk
      rw [i2 k i hk]
      have := (hb' i (List.mem_of_getElem? hk)).1
      have e : i - s = (i - (s + 1)) + 1 := by omega
      rw [e]; simp

theorem updConstruct_struct {α : Type} {ty : Types} {u : Used} (hi : Inv ty u) {t : Nat}
    {ms : List Nat} (ht : ty t = .struct ms) {l : List α} (hl : l.length = ms.length) :
    (updConstruct ty u t l).length = (u t).length ∧
    ∀ (k i : Nat), (u t)[k]? = some i → (updConstruct ty u t l)[k]? = l[i]? := by
  have e : updConstruct ty u t l =
      l.zipIdx.filterMap fun x => if (decide (x.2 ∈ u t)) then some x.1 else none := by
    unfold updConstruct
    congr 1
    funext x
    simp only [newIdx, ht]
    by_cases h : x.2 ∈ u t <;> simp [h]
  rw [e]
  have := keep_idx l 0 (u t) (fun i => decide (i ∈ u t)) (hi t ms ht).1
    (fun i h => ⟨Nat.zero_le _, by have := (hi t ms ht).2 i h; omega⟩) (by simp)
  simpa using this

theorem updConstruct_other {α : Type} {ty : Types} {u : Used} {t : Nat}
    (h : ∀ ms, ty t ≠ .struct ms) (l : List α) : updConstruct ty u t l = l := by
  unfold updConstruct
  have e := (newTypes_other (ty := ty) (u := u) (t := t) h).2
  have : (fun x : α × Nat => (newIdx ty u t x.2).map fun _ => x.1) = fun x => some x.1 := by
    funext x; rw [e]; rfl
  rw [this]
  generalize 0 = s
  induction l generalizing s with
  | nil => rfl
  | cons a l ih =>
    rw [List.zipIdx_cons]
    show a :: List.filterMap _ _ = _
    rw [ih]

end Verif.DeadMembers
