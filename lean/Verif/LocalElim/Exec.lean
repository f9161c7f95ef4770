import Verif.LocalElim.Static
set_option linter.unusedSimpArgs false
set_option linter.unusedVariables false
set_option linter.unusedSectionVars false
/-!
# What the pass knows holds of executions
-/
namespace Verif.LocalElim
open Verif.SsaExec Verif.LocalElim.Spec
variable {I B V R : Type} [DecidableEq I] {f : Func I B} {n : Nat} {S : Base I B V R}

/-- What logical addressing gives (see Escape.lean): a pointer to a variable of the function is not stored, and an address
used only to access its variable does not get anywhere else. -/
structure Logical (f : Func I B) (S : Base I B V R) : Prop where
  not_stored : ∀ i ∈ f.insts, f.kind i = .store → ∀ p w, f.ops i = [p, w] → ∀ k v, ¬ Direct f k w v
  hidden : ∀ v, f.target v = true → Private f v → S.hidden v = true
  no_escape : ∀ c, Reach f.code (sem f S) c → ∀ i r, c.rest = i :: r → (f.kind i = .load ∨ f.kind i = .store) →
    ∀ p l, f.ops i = p :: l → ∀ y v, c.env p = some y → S.points y = some v → S.hidden v = true → ∃ k, Direct f k p v

open Classical in
/-- The blocks before `b`. -/
noncomputable def before (f : Func I B) (b : B) : List B :=
  if h : ∃ l1 l2, f.blocks = l1 ++ b :: l2 then choose h else []

theorem before_spec (hw : WellFormed f n) (b : B) : ∃ l2, f.blocks = before f b ++ b :: l2 := by
  have h : ∃ l1 l2, f.blocks = l1 ++ b :: l2 := List.append_of_mem (hw.blocks b)
  simp only [before, h, dite_true]
  exact Classical.choose_spec h

/-- The state of the pass at a place of a block. -/
noncomputable def here (f : Func I B) (n : Nat) (b : B) (pre : List I) : State I := stateAt f n (before f b) pre

theorem here_snoc {b : B} {pre : List I} {i} : here f n b (pre ++ [i]) = f.step n (here f n b pre) i := stateAt_snoc

theorem here_inv (hw : WellFormed f n) {b : B} {pre post : List I} (hp : f.all b = pre ++ post) :
    ∃ done, SInv f n done (here f n b pre) := by
  obtain ⟨l2, hb⟩ := before_spec hw b
  exact ⟨_, sinv_at hw hb hp⟩

theorem unique_code (hw : WellFormed f n) : Unique f.code := by
  intro y b l r b' l' r' h h'
  exact flatMap_unique f.blocks hw.nodup b (hw.blocks b) b' (hw.blocks b') y l r l' r' h h'

theorem before_blocks_unique (hw : WellFormed f n) (hne : ∀ b, f.body b ≠ []) {b : B} {l1 l2} (h : f.blocks = l1 ++ b :: l2) :
    l1 = before f b := by
  obtain ⟨l2', h'⟩ := before_spec hw b
  obtain ⟨y, hy⟩ : ∃ y, y ∈ f.all b := by
    obtain ⟨y, r, hb⟩ := List.exists_cons_of_ne_nil (hne b)
    exact ⟨y, by simp [Func.all, hb]⟩
  have hno : ∀ (l1 l2 : List B), f.blocks = l1 ++ b :: l2 → b ∉ l1 ∧ b ∉ l2 := by
    intro l1 l2 h
    have := hw.nodup
    rw [Func.insts, h, List.flatMap_append, List.flatMap_cons, List.nodup_append] at this
    refine ⟨fun hm => ?_, fun hm => ?_⟩
    · exact this.2.2 y (List.mem_flatMap.mpr ⟨b, hm, hy⟩) y (by simp [hy]) rfl
    · have h2 := this.2.1
      rw [List.nodup_append] at h2
      exact h2.2.2 y hy y (List.mem_flatMap.mpr ⟨b, hm, hy⟩) rfl
  generalize before f b = l1' at h'
  have h1 := hno l1 l2 h
  have h2 := hno l1' l2' h'
  rw [h] at h'
  clear h hno
  induction l1 generalizing l1' with
  | nil =>
    cases l1' with
    | nil => rfl
    | cons z l1' =>
      simp only [List.nil_append, List.cons_append, List.cons.injEq] at h'
      obtain ⟨rfl, -⟩ := h'
      simp at h2
  | cons x l1 ih =>
    cases l1' with
    | nil =>
      simp only [List.nil_append, List.cons_append, List.cons.injEq] at h'
      obtain ⟨rfl, -⟩ := h'
      simp at h1
    | cons z l1' =>
      simp only [List.cons_append, List.cons.injEq] at h'
      obtain ⟨rfl, h'⟩ := h'
      simp only [List.mem_cons, not_or] at h1 h2
      rw [ih l1' h' ⟨h1.1.2, h1.2⟩ ⟨h2.1.2, h2.2⟩]

section
variable (hw : WellFormed f n) (hv : Valid f.code fun d => S.start d ≠ none)
include hw hv

theorem body_ne (b : B) : f.body b ≠ [] := hv.body_ne b

theorem Fwd.here {d e} (h : Fwd f n d e) : ∃ b pre post p v, f.all b = pre ++ d :: post ∧ f.ops d = [p] ∧
    f.access n (here f n b pre) p = some (v, true) ∧
    ((∃ s q, (LocalElim.here f n b pre).st v = some s ∧ f.ops s = [q, e]) ∨
      ((LocalElim.here f n b pre).st v = none ∧ (LocalElim.here f n b pre).ld v = some e)) := by
  obtain ⟨l1, b, l2, pre, post, p, v, hb, hp, hk, ho, ha, hr⟩ := h
  have := before_blocks_unique hw hv.body_ne hb
  subst this
  exact ⟨b, pre, post, p, v, hp, ho, ha, hr⟩

theorem not_phi {i b} (hk : f.kind i ≠ .other) : i ∉ f.phis b := fun h => hk (hw.phi b i h).1

theorem not_term {i} (hk : f.kind i ≠ .other) : ¬ IsTerm f.code i := by
  rintro ⟨b, l, h⟩
  exact hk (hw.term b l i h)

theorem in_body {b i} (h : i ∈ f.all b) (hk : f.kind i ≠ .other) : i ∈ f.body b := by
  simp only [Func.all, List.mem_append] at h
  rcases h with h | h
  · exact absurd h (not_phi hw hv hk)
  · exact h

theorem dom_before {b pre post} {i j : I} (hp : f.all b = pre ++ i :: post) (hj : j ∈ pre) : Dom f.code j i := by
  obtain ⟨l, m, rfl⟩ := List.append_of_mem hj
  exact before_dom (unique_code hw) m l (b := b) (r := post) (by simpa [Code.all, Func.code, Func.all] using hp)

theorem placed : Placed f.code (sem f S) (Fwd f n) := by
  constructor
  · intro d e h
    obtain ⟨b, pre, post, p, v, hp, -⟩ := h.here hw hv
    exact ⟨b, by simp [Code.all, Func.code]; have : d ∈ f.all b := by simp [hp]
                 simpa [Func.all] using this⟩
  · intro d e h
    obtain ⟨b, pre, post, p, v, hp, ho, ha, hr⟩ := h.here hw hv
    obtain ⟨done, hinv⟩ := here_inv hw hp
    rcases hr with ⟨s, q, hs, hso⟩ | ⟨-, hl⟩
    · have hsp : s ∈ pre := local_st hw hs
      have hds := dom_before hw hv hp hsp
      have hk := (hinv.st v s hs).2.2
      have hsb : s ∈ f.body b := in_body hw hv (by simp [hp, hsp]) (by simp [hk])
      rcases hv.ops b s hsb e (by simp [Func.code, hso]) with h1 | ⟨h1, h2⟩
      · exact .inl h1
      · exact .inr ⟨h1.trans hds, h2⟩
    · have hep : e ∈ pre := local_ld hw hl
      have hk := (hinv.ld v e hl).2.2.1
      exact .inr ⟨dom_before hw hv hp hep, not_term hw hv (by simp [hk])⟩

/-- What pointers are. -/
def PtrInv (f : Func I B) (S : Base I B V R) (c : Config I B V (Mem I V R)) : Prop :=
  ∀ p y, c.env p = some y → (∀ k v, Direct f k p v → S.points y = some v) ∧ (∀ v, CopyOf f p v → y = S.addr v)

/-- What the maps of the pass mean. -/
def Facts (f : Func I B) (n : Nat) (c : Config I B V (Mem I V R)) : Prop :=
  ∀ pre, f.all c.block = pre ++ c.rest →
    (∀ v j, (here f n c.block pre).st v = some j → ∀ q w, f.ops j = [q, w] → c.env w = some (c.mem.1 v)) ∧
    (∀ v j, (here f n c.block pre).ld v = some j → c.env j = some (c.mem.1 v))

theorem start_none {p} (hk : f.kind p ≠ .other) : S.start p = none := by
  have := hw.inside p hk
  simp only [Func.insts, List.mem_flatMap] at this
  obtain ⟨b, -, hb⟩ := this
  have := hv.inside b p hb
  simpa using this

theorem direct_other {k p v} (h : Direct f k p v) : f.kind p ≠ .other := by
  rcases direct_kind h with h | h | h <;> simp [h]

theorem copy_direct {p v} (h : CopyOf f p v) : ∃ k, Direct f k p v := by
  induction h with
  | here hk => exact ⟨0, .here hk⟩
  | copy hk ho _ ih =>
    obtain ⟨k, hd⟩ := ih
    exact ⟨k + 1, .copy hk ho hd⟩

theorem ptr_start (hP : Pointers S) : PtrInv f S (Start f.code (sem f S)) := by
  intro p y h
  have : f.kind p = .other := by
    by_cases hk : f.kind p = .other
    · exact hk
    · have h1 := start_none hw hv hk
      simp only [Start, sem] at h
      rw [h1] at h
      cases h
  constructor
  · intro k v hd
    exact absurd this (direct_other hw hv hd)
  · intro v hc
    obtain ⟨k, hd⟩ := copy_direct hw hv hc
    exact absurd this (direct_other hw hv hd)

theorem ptr_step (hP : Pointers S) {c c'} (h : PtrInv f S c) (hs : Step f.code (sem f S) c c') : PtrInv f S c' := by
  cases hs with
  | @act b i j r env m hh a x m1 hra hact =>
    intro p y hp
    simp only [define] at hp
    split at hp
    · next hpi =>
      subst hpi
      cases hp
      have hc1 : ∀ z, f.kind p = .copy → f.ops p = [z] → env z = some x := by
        intro z hk hz
        simp only [Func.code, hz, List.map_cons, List.map_nil] at hra
        cases hra with
        | cons h1 h2 =>
          cases h2
          simp only [sem, act, hk] at hact
          rw [hact.1]
          exact h1
      constructor
      · intro k v hd
        cases hd with
        | here hk =>
          simp only [sem, act, hk] at hact
          rw [hact.1]
          exact hP.points _
        | @chain _ z _ r' _ hk ho hd =>
          simp only [Func.code, ho, List.map_cons] at hra
          cases hra with
          | cons h1 h2 =>
            simp only [sem, act, hk] at hact
            rw [hact.2.1]
            exact (h _ _ h1).1 _ _ hd
        | @copy _ z _ _ hk ho hd => exact (h _ _ (hc1 z hk ho)).1 _ _ hd
      · intro v hc
        cases hc with
        | here hk =>
          simp only [sem, act, hk] at hact
          exact hact.1
        | @copy z _ _ hk ho hd => exact (h _ _ (hc1 z hk ho)).2 _ hd
    · exact h p y hp
  | @jump b i env m hh a b' env2 hra hj hsu hph hot =>
    intro p y hp
    by_cases hpp : p ∈ f.phis b'
    · have hk := (hw.phi b' p hpp).1
      constructor
      · intro k v hd
        exact absurd hk (direct_other hw hv hd)
      · intro v hc
        obtain ⟨k, hd⟩ := copy_direct hw hv hc
        exact absurd hk (direct_other hw hv hd)
    · simp only [hot p hpp] at hp
      exact h p y hp

/-- The pointer of a load or store, and the variable the pass finds. -/
theorem access_points (hP : Pointers S) (hL : Logical f S) {c : Config I B V (Mem I V R)} (h : Reach f.code (sem f S) c)
    (hptr : PtrInv f S c) (hsame : SameAt (Fwd f n) c) {i r p l} (hi : c.rest = i :: r) (ho : f.ops i = p :: l) {y} (hy : c.env p = some y)
    {pre} (hpre : f.all c.block = pre ++ c.rest) {v wh} (ha : f.access n (here f n c.block pre) p = some (v, wh)) :
    S.points y = some v ∧ S.hidden v = true ∧ (wh = true → y = S.addr v) := by
  obtain ⟨done, hinv⟩ := here_inv hw hpre
  obtain ⟨q, hq⟩ := (at_reach (S := sem f S) hv h).split
  have hib : i ∈ f.body c.block := by
    have : f.code.body c.block = f.body c.block := rfl
    rw [← this, hq, hi]; simp
  have hav : Avail f.code (sem f S) p i := hv.ops c.block i hib p (by simp [Func.code, ho])
  obtain ⟨-, z, h1, h2⟩ := (hinv.chain p).value hv (placed hw hv) h hsame hi hav
  rw [hy] at h1
  cases h1
  obtain ⟨ht1, ht2⟩ := access_tgt ha
  unfold Func.access at ha
  split at ha
  · cases ha
  · next u hu =>
    split at ha
    · simp only [Option.some.injEq, Prod.mk.injEq] at ha
      obtain ⟨rfl, hwh⟩ := ha
      obtain ⟨k, hd⟩ := base_direct hw hu
      obtain ⟨h3, h4⟩ := hptr _ _ h2
      refine ⟨h3 _ _ hd, hL.hidden _ ht1 (supported_private hw hL.not_stored ht2), ?_⟩
      rintro rfl
      exact h4 _ (strip_copy hw hu (by simpa using hwh))
    · cases ha

theorem points_access (hL : Logical f S) {c : Config I B V (Mem I V R)} (h : Reach f.code (sem f S) c)
    {i r p l} (hi : c.rest = i :: r) (hk : f.kind i = .load ∨ f.kind i = .store) (ho : f.ops i = p :: l) {y} (hy : c.env p = some y)
    {pre} (hpre : f.all c.block = pre ++ c.rest) {v} (hv' : S.points y = some v)
    (ht : f.target v = true ∧ f.supported n v = true) : ∃ wh, f.access n (here f n c.block pre) p = some (v, wh) := by
  have hh := hL.hidden v ht.1 (supported_private hw hL.not_stored ht.2)
  obtain ⟨k, hd⟩ := hL.no_escape c h i r hi hk p l ho y v hy hv' hh
  obtain ⟨done, hinv⟩ := here_inv hw hpre
  have hsub : (here f n c.block pre).sub p = p := by
    have := hinv.chain p
    generalize (here f n c.block pre).sub p = e at this
    cases this with
    | refl => rfl
    | cons h1 _ =>
      have := h1.kind
      rcases direct_kind hd with h2 | h2 | h2 <;> rw [this] at h2 <;> cases h2
  have hb := direct_base hd (hw.deep _ _ _ hd)
  refine ⟨decide (f.kind (f.strip n p) = .variable), ?_⟩
  unfold Func.access
  rw [hsub, hb]
  simp only [ht.1, ht.2, Bool.and_self, if_true]

/-- Only a store changes a hidden variable. -/
theorem act_frame {i a m x m'} (hk : f.kind i ≠ .store) (h : act f S i a m x m') {v} (hh : S.hidden v = true) :
    m'.1 v = m.1 v := by
  unfold act at h
  split at h
  · rw [h.2]
  · rw [h.2]
  · rw [h.2.2]
  · split at h <;> rw [h.2]
  · next hk' => exact absurd hk' hk
  · rw [h]
  · obtain ⟨o, -, h⟩ := h
    rw [h]
    simp [hh]

theorem step_same {s : State I} {i} (h1 : f.kind i ≠ .store) (h2 : f.kind i ≠ .load) (h3 : f.kind i ≠ .call) : f.step n s i = s := by
  unfold Func.step
  split <;> simp_all

omit hv in
theorem pre_eq {b : B} {pre pre' : List I} {i r} (h : f.all b = pre ++ i :: r) (h' : f.all b = pre' ++ r) : pre' = pre ++ [i] := by
  rw [h] at h'
  have : pre ++ i :: r = (pre ++ [i]) ++ r := by simp
  rw [this] at h'
  exact (List.append_cancel_right h').symm

theorem exists_pre {c : Config I B V (Mem I V R)} (h : Reach f.code (sem f S) c) : ∃ pre, f.all c.block = pre ++ c.rest := by
  obtain ⟨q, hq⟩ := (at_reach (S := sem f S) hv h).split
  have : f.code.body c.block = f.body c.block := rfl
  rw [this] at hq
  exact ⟨f.phis c.block ++ q, by simp [Func.all, hq]⟩

/-- At the start of a block nothing is known. -/
theorem here_start {b : B} {pre} (h : f.all b = pre ++ f.body b) : (here f n b pre).st = (fun _ => none) ∧ (here f n b pre).ld = fun _ => none := by
  have : pre = f.phis b := by
    rw [Func.all] at h
    exact (List.append_cancel_right h).symm
  subst this
  have : ∀ (l : List I) (s : State I), (∀ i ∈ l, f.kind i = .other) → l.foldl (f.step n) s = s := by
    intro l
    induction l with
    | nil => intro s _; rfl
    | cons i l ih =>
      intro s hl
      have hi := hl i (by simp)
      rw [List.foldl_cons, step_same hw hv (by simp [hi]) (by simp [hi]) (by simp [hi])]
      exact ih s fun j hj => hl j (by simp [hj])
  unfold here stateAt
  rw [this _ _ fun i hi => (hw.phi b i hi).1]
  exact ⟨rfl, rfl⟩

theorem facts_start : Facts f n (Start f.code (sem f S)) := by
  intro pre hpre
  obtain ⟨h1, h2⟩ := here_start hw hv (b := f.entry) hpre
  simp [Start, Func.code] at h1 h2 ⊢
  simp [h1, h2]

/-- The current instruction is not what a remembered store stores. -/
theorem object_ne {c : Config I B V (Mem I V R)} (h : Reach f.code (sem f S) c) {i r} (hi : c.rest = i :: r)
    {pre} (hpre : f.all c.block = pre ++ c.rest) {v j q w} (hj : (here f n c.block pre).st v = some j) (ho : f.ops j = [q, w]) : w ≠ i := by
  rintro rfl
  obtain ⟨done, hinv⟩ := here_inv hw hpre
  have hk := (hinv.st v j hj).2.2
  have hjp : j ∈ pre := local_st hw hj
  rw [hi] at hpre
  have hd := dom_before hw hv hpre hjp
  have hjb : j ∈ f.body c.block := in_body hw hv (by simp [hpre, hjp]) (by simp [hk])
  obtain ⟨u, r', hu, ht⟩ := (at_reach (S := sem f S) hv h).here
  rw [hi] at hu
  cases hu
  rcases hv.ops c.block j hjb w (by simp [Func.code, ho]) with h1 | ⟨h1, -⟩
  · exact hv.inside c.block w (by have : w ∈ f.all c.block := by simp [hpre]
                                  simpa [Code.all, Func.code, Func.all] using this) h1
  · exact dom_irrefl ht (h1.trans hd)

theorem operand_ne {c : Config I B V (Mem I V R)} (h : Reach f.code (sem f S) c) {i r} (hi : c.rest = i :: r) {w} (ho : w ∈ f.ops i) : w ≠ i := by
  rintro rfl
  obtain ⟨u, r', hu, ht⟩ := (at_reach (S := sem f S) hv h).here
  rw [hi] at hu
  cases hu
  obtain ⟨q, hq⟩ := (at_reach (S := sem f S) hv h).split
  have hib : w ∈ f.body c.block := by
    have : f.code.body c.block = f.body c.block := rfl
    rw [← this, hq, hi]; simp
  rcases hv.ops c.block w hib w (by simp [Func.code, ho]) with h1 | ⟨h1, -⟩
  · exact hv.inside c.block w (by simp [Code.all, Func.code, hib]) h1
  · exact dom_irrefl ht h1

theorem loaded_ne {b : B} {pre : List I} {i r} (hpre : f.all b = pre ++ i :: r) {v j} (hj : (here f n b pre).ld v = some j) : j ≠ i := by
  rintro rfl
  obtain ⟨l2, hb⟩ := before_spec hw b
  have := fresh hw hb hpre
  exact this (by simp [local_ld hw hj])

theorem facts_act (hP : Pointers S) (hL : Logical f S) {b : B} {i j r env m hh}
    (h : Reach f.code (sem f S) ⟨b, i :: j :: r, env, m, hh⟩)
    (hptr : PtrInv f S ⟨b, i :: j :: r, env, m, hh⟩) (hsame : SameAt (V := V) (Fwd f n) ⟨b, i :: j :: r, env, m, hh⟩)
    (hf : Facts f n ⟨b, i :: j :: r, env, m, hh⟩) {a x m1} (hra : ReadAll env (f.code.ops i) a) (hact : act f S i a m x m1) :
    Facts f n ⟨b, j :: r, define env i x, m1, i :: hh⟩ := by
  intro pre' hpre'
  obtain ⟨pre, hpre⟩ := exists_pre hw hv h
  simp only at hpre hpre'
  have := pre_eq hw hpre hpre'
  subst this
  simp only
  obtain ⟨hst, hld⟩ := hf pre hpre
  simp only at hst hld
  obtain ⟨done, hinv⟩ := here_inv hw hpre
  have hobj := fun {v j q w} => object_ne hw hv h rfl hpre (v := v) (j := j) (q := q) (w := w)
  have hlne := fun {v j} => loaded_ne hw hv hpre (v := v) (j := j)
  simp only at hobj
  rw [here_snoc]
  -- when nothing is remembered anew and the remembered variables keep their contents
  have keep : ∀ (s' : State I), (∀ v j, s'.st v = some j → (here f n b pre).st v = some j ∧ m1.1 v = m.1 v) →
      (∀ v j, s'.ld v = some j → (here f n b pre).ld v = some j ∧ m1.1 v = m.1 v) →
      (∀ v j, s'.st v = some j → ∀ q w, f.ops j = [q, w] → define env i x w = some (m1.1 v)) ∧
      (∀ v j, s'.ld v = some j → define env i x j = some (m1.1 v)) := by
    intro s' h1 h2
    constructor
    · intro v j hj q w ho
      obtain ⟨h3, h4⟩ := h1 v j hj
      simp only [define, hobj h3 ho, if_false, h4]
      exact hst v j h3 q w ho
    · intro v j hj
      obtain ⟨h3, h4⟩ := h2 v j hj
      simp only [define, hlne h3, if_false, h4]
      exact hld v j h3
  have hid : ∀ v, (here f n b pre).st v ≠ none ∨ (here f n b pre).ld v ≠ none → S.hidden v = true := by
    intro v hv'
    have := hinv.tgt v hv'
    exact hL.hidden v this.1 (supported_private hw hL.not_stored this.2)
  have fix : (∀ v, S.hidden v = true → m1.1 v = m.1 v) → ∀ (s' : State I),
      (∀ v j, s'.st v = some j → (here f n b pre).st v = some j) →
      (∀ v j, s'.ld v = some j → (here f n b pre).ld v = some j) →
      (∀ v j, s'.st v = some j → ∀ q w, f.ops j = [q, w] → define env i x w = some (m1.1 v)) ∧
      (∀ v j, s'.ld v = some j → define env i x j = some (m1.1 v)) := by
    intro hm s' h1 h2
    exact keep s' (fun v j hj => ⟨h1 v j hj, hm v (hid v (.inl (by simp [h1 v j hj])))⟩)
      (fun v j hj => ⟨h2 v j hj, hm v (hid v (.inr (by simp [h2 v j hj])))⟩)
  by_cases hks : f.kind i = .store
  · obtain ⟨p, w, ho⟩ := hw.store i hks
    simp only [Func.code, ho, List.map_cons, List.map_nil] at hra
    cases hra with
    | @cons _ _ y _ h1 h2 =>
    cases h2 with
    | @cons _ _ z _ h2 h3 =>
    cases h3
    simp only [Read] at h1 h2
    have hap := fun {v wh} => access_points hw hv hP hL h hptr hsame rfl ho h1 hpre (v := v) (wh := wh)
    simp only at hap
    simp only [act, hks] at hact
    have hstep : f.step n (here f n b pre) i = match f.access n (here f n b pre) p with
      | none => here f n b pre
      | some (v, true) => f.storeWhole (here f n b pre) i w v
      | some (v, false) => { here f n b pre with st := set (here f n b pre).st v none, ld := set (here f n b pre).ld v none } := by
      unfold Func.step
      rw [hks, ho]
      rfl
    cases hpt : S.points y with
    | none =>
      simp only [hpt] at hact
      have hn : f.access n (here f n b pre) p = none := by
        cases hac : f.access n (here f n b pre) p with
        | none => rfl
        | some vw =>
          obtain ⟨v, wh⟩ := vw
          have := (hap hac).1
          rw [hpt] at this
          cases this
      rw [hstep, hn]
      exact fix (fun v _ => by rw [hact.2]) _ (fun _ _ h => h) (fun _ _ h => h)
    | some v =>
      simp only [hpt] at hact
      subst hact
      cases hac : f.access n (here f n b pre) p with
      | none =>
        rw [hstep, hac]
        have hnt : ¬ (f.target v = true ∧ f.supported n v = true) := by
          intro ht
          obtain ⟨wh, hc⟩ := points_access hw hv hL h rfl (.inr hks) ho h1 hpre hpt ht
          simp only at hc
          rw [hac] at hc
          cases hc
        have hne : ∀ u, (here f n b pre).st u ≠ none ∨ (here f n b pre).ld u ≠ none → u ≠ v := by
          rintro u hu rfl
          exact hnt (hinv.tgt u hu)
        exact keep _ (fun u j hj => ⟨hj, by simp [write, hne u (.inl (by simp [hj]))]⟩)
          (fun u j hj => ⟨hj, by simp [write, hne u (.inr (by simp [hj]))]⟩)
      | some vw =>
        obtain ⟨v', wh⟩ := vw
        obtain ⟨h3, h4, h5⟩ := hap hac
        rw [hpt] at h3
        cases h3
        cases wh with
        | false =>
          rw [hstep, hac]
          refine keep _ ?_ ?_
          · intro u j hj
            rcases set_some hj with ⟨-, h6⟩ | ⟨h6, h7⟩
            · cases h6
            · exact ⟨h7, by simp [write, h6]⟩
          · intro u j hj
            rcases set_some hj with ⟨-, h6⟩ | ⟨h6, h7⟩
            · cases h6
            · exact ⟨h7, by simp [write, h6]⟩
        | true =>
          have hya := h5 rfl
          subst hya
          rw [hstep, hac]
          simp only [hP.put] at keep ⊢
          unfold Func.storeWhole
          split
          · next hl =>
            have hz : z = m.1 v := by
              have h6 := hld v _ hl
              obtain ⟨q, hq⟩ := (at_reach (S := sem f S) hv h).split
              have hib : i ∈ f.body b := by
                have : f.code.body b = f.body b := rfl
                simp only at hq
                rw [← this, hq]; simp
              have hav : Avail f.code (sem f S) w i := hv.ops b i hib w (by simp [Func.code, ho])
              obtain ⟨-, z', h7, h8⟩ := (hinv.chain w).value hv (placed hw hv) h hsame rfl hav
              simp only at h7 h8
              rw [h2] at h7
              cases h7
              rw [h6] at h8
              exact (Option.some.inj h8).symm
            subst hz
            refine keep _ (fun u j hj => ⟨hj, ?_⟩) (fun u j hj => ⟨hj, ?_⟩)
            · simp only [write]
              split
              · next hu => rw [hu]
              · rfl
            · simp only [write]
              split
              · next hu => rw [hu]
              · rfl
          · constructor
            · intro u j hj q w' ho'
              rcases set_some hj with ⟨rfl, h6⟩ | ⟨h6, h7⟩
              · cases h6
                rw [ho] at ho'
                cases ho'
                have hwi : w ≠ i := operand_ne hw hv h rfl (by simp [ho])
                simp [define, hwi, write, h2]
              · simp only [define, hobj h7 ho', if_false, write, h6]
                exact hst u j h7 q w' ho'
            · intro u j hj
              rcases set_some hj with ⟨rfl, h6⟩ | ⟨h6, h7⟩
              · cases h6
              · simp only [define, hlne h7, if_false, write, h6]
                exact hld u j h7
  · have hfr : ∀ v, S.hidden v = true → m1.1 v = m.1 v := fun v hh => act_frame hw hv hks hact hh
    by_cases hkl : f.kind i = .load
    · obtain ⟨p, ho⟩ := hw.load i hkl
      simp only [Func.code, ho, List.map_cons, List.map_nil] at hra
      cases hra with
      | @cons _ _ y _ h1 h2 =>
      cases h2
      simp only [Read] at h1
      have hap := fun {v wh} => access_points hw hv hP hL h hptr hsame rfl ho h1 hpre (v := v) (wh := wh)
      simp only at hap
      have hstep : f.step n (here f n b pre) i = match f.access n (here f n b pre) p with
        | none => here f n b pre
        | some (v, true) => f.loadWhole (here f n b pre) i v
        | some (v, false) => loadPart (here f n b pre) v := by
        unfold Func.step
        rw [hkl, ho]
        rfl
      rw [hstep]
      split
      · exact fix hfr _ (fun _ _ h => h) (fun _ _ h => h)
      · next v hac =>
        unfold Func.loadWhole
        split
        · split
          · exact fix hfr _ (fun _ _ h => h) (fun _ _ h => h)
          · exact fix hfr _ (fun _ _ h => h) (fun _ _ h => h)
        · split
          · exact fix hfr _ (fun _ _ h => h) (fun _ _ h => h)
          · obtain ⟨h3, h4, h5⟩ := hap hac
            have hya := h5 rfl
            subst hya
            have hx : x = m1.1 v := by
              simp only [act, hkl, hP.points, hP.get] at hact
              rw [hact.1, hact.2]
            have hfix := fix hfr (here f n b pre) (fun _ _ h => h) (fun _ _ h => h)
            refine ⟨hfix.1, ?_⟩
            intro u j hj
            rcases set_some hj with ⟨rfl, h6⟩ | ⟨h6, h7⟩
            · cases h6
              simp [define, hx]
            · exact hfix.2 u j h7
      · unfold loadPart
        split
        · exact fix hfr _ (fun _ _ h => h) (fun _ _ h => h)
        · exact fix hfr _ (fun _ _ h => h) (fun _ _ h => h)
    · by_cases hkc : f.kind i = .call
      · have : f.step n (here f n b pre) i = { here f n b pre with st := fun _ => none, ld := fun _ => none } := by
          unfold Func.step
          rw [hkc]
        rw [this]
        simp
      · rw [step_same hw hv hks hkl hkc]
        exact fix hfr _ (fun _ _ h => h) (fun _ _ h => h)

/-- A replaced load reads what is used instead. -/
theorem load_value (hP : Pointers S) (hL : Logical f S) {c : Config I B V (Mem I V R)} (h : Reach f.code (sem f S) c)
    (hptr : PtrInv f S c) (hsame : SameAt (Fwd f n) c) (hf : Facts f n c) {d e r} (hi : c.rest = d :: r) (hfw : Fwd f n d e)
    {a x m'} (hra : ReadAll c.env (f.code.ops d) a) (hact : act f S d a c.mem x m') {y} (hy : c.env e = some y) : x = y := by
  have hk := hfw.kind
  obtain ⟨b, pre, post, p, v, hp, ho, ha, hr⟩ := hfw.here hw hv
  obtain ⟨pre', hpre'⟩ := exists_pre hw hv h
  rw [hi] at hpre'
  obtain ⟨rfl, rfl⟩ := unique_code hw d b pre post c.block pre' r hp hpre'
  simp only [Func.code, ho, List.map_cons, List.map_nil] at hra
  cases hra with
  | @cons _ _ z _ h1 h2 =>
  cases h2
  simp only [Read] at h1
  obtain ⟨h3, h4, h5⟩ := access_points hw hv hP hL h hptr hsame hi ho h1 (by rw [hi]; exact hpre') ha
  have := h5 rfl
  subst this
  simp only [act, hk, hP.points, hP.get] at hact
  obtain ⟨hst, hld⟩ := hf pre (by rw [hi]; exact hpre')
  rw [hact.1]
  rcases hr with ⟨s, q, hs, hso⟩ | ⟨-, hl⟩
  · have := hst v s hs q e hso
    rw [hy] at this
    exact (Option.some.inj this).symm
  · have := hld v e hl
    rw [hy] at this
    exact (Option.some.inj this).symm

theorem reach_inv (hP : Pointers S) (hL : Logical f S) {c : Config I B V (Mem I V R)} (h : Reach f.code (sem f S) c) :
    PtrInv f S c ∧ SameAt (Fwd f n) c ∧ Facts f n c := by
  induction h with
  | start => exact ⟨ptr_start hw hv hP, same_start, facts_start hw hv⟩
  | @step c c' h hs ih =>
    obtain ⟨h1, h2, h3⟩ := ih
    refine ⟨ptr_step hw hv hP h1 hs, ?_, ?_⟩
    · refine same_step (S := sem f S) hv (fun d e hf b => not_phi hw hv (by simp [hf.kind])) (fun d e hf => not_term hw hv (by simp [hf.kind])) h h2 hs ?_
      intro d e j r hr hfw _ a x m' hra hact y hy
      exact load_value hw hv hP hL h h1 h2 h3 hr hfw hra hact hy
    · cases hs with
      | act hra hact => exact facts_act hw hv hP hL h h1 h2 h3 hra hact
      | @jump b i env m hh a b' env2 hra hj hsu hph hot =>
        intro pre hpre
        obtain ⟨h4, h5⟩ := here_start hw hv hpre
        simp only at h4 h5 ⊢
        simp [h4, h5]

theorem pairs (hP : Pointers S) (hL : Logical f S) : Pairs f.code (sem f S) (Fwd f n) :=
  ⟨placed hw hv, fun c h => (reach_inv hw hv hP hL h).2.1⟩

end
end Verif.LocalElim
