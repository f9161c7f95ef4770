import Verif.SingleStore.Static
set_option linter.unusedSimpArgs false
set_option linter.unusedVariables false
set_option linter.unusedSectionVars false
/-!
# What the pass knows holds of executions
-/
namespace Verif.SingleStore
open Verif.SsaExec Verif.SingleStore.Spec
variable {I B V R : Type} [DecidableEq I] {f : Func I B} {n : Nat} {S : Base I B V R}
  {clean : V → Prop} {cleanRest : R → Prop}

theorem unique_code (hw : WellFormed f n) : Unique f.code := by
  intro y b l r b' l' r' h h'
  exact flatMap_unique f.blocks hw.nodup b (hw.blocks b) b' (hw.blocks b') y l r l' r' h h'

def EInv (f : Func I B) (S : Base I B V R) (clean : V → Prop) (cleanRest : R → Prop) (c : Config I B V (Mem I V R)) : Prop :=
  (∀ d y, c.env d = some y → f.kind d ≠ .store → f.kind d ≠ .debug →
    clean y ∨ ∃ k v, Direct f k d v ∧ S.hidden v = true) ∧
  (∀ v, clean (c.mem.1 v)) ∧ cleanRest c.mem.2

theorem readAll_mem {env : I → Option V} : ∀ {l : List I} {a : List V}, ReadAll env (l.map Operand.id) a → ∀ y ∈ a, ∃ d ∈ l, env d = some y := by
  intro l
  induction l with
  | nil => intro a h y hy; cases h; cases hy
  | cons d l ih =>
    intro a h y hy
    cases h with
    | cons h1 h2 =>
    simp only [List.mem_cons] at hy
    rcases hy with rfl | hy
    · exact ⟨d, by simp, h1⟩
    · obtain ⟨e, h3, h4⟩ := ih h2 y hy
      exact ⟨e, by simp [h3], h4⟩

section
variable (hw : WellFormed f n) (hv : Valid f.code fun d => S.start d ≠ none)
include hw hv

theorem not_phi {i b} (hk : f.kind i ≠ .other) : i ∉ f.phis b := fun h => hk (hw.phi b i h).1

theorem not_term {i} (hk : f.kind i ≠ .other) : ¬ IsTerm f.code i := by
  rintro ⟨b, l, h⟩
  exact hk (hw.term b l i h)

theorem in_body {b i} (h : i ∈ f.all b) (hk : f.kind i ≠ .other) : i ∈ f.body b := by
  simp only [Func.all, List.mem_append] at h
  rcases h with h | h
  · exact absurd h (not_phi hw hv hk)
  · exact h

theorem kind_start {p y} (h : S.start p = some y) : f.kind p = .other := by
  by_cases hk : f.kind p = .other
  · exact hk
  · have := hw.inside p hk
    simp only [Func.insts, List.mem_flatMap] at this
    obtain ⟨b, -, hb⟩ := this
    exact absurd (by rw [h]; simp) (hv.inside b p hb)

/-- What pointers are. -/
def PtrInv (f : Func I B) (S : Base I B V R) (c : Config I B V (Mem I V R)) : Prop :=
  ∀ p y, c.env p = some y → (∀ k v, Direct f k p v → S.points y = some v) ∧ (∀ k v, CopyOf f k p v → y = S.addr v)

theorem direct_other {k p v} (h : Direct f k p v) : f.kind p ≠ .other := by
  rcases direct_kind h with h | h | h <;> simp [h]

theorem ptr_start (hP : Pointers S) : PtrInv f S (Start f.code (sem f S)) := by
  intro p y h
  have := kind_start hw hv (S := S) h
  constructor
  · intro k v hd
    exact absurd this (direct_other hw hv hd)
  · intro k v hc
    exact absurd this (direct_other hw hv hc.direct)

theorem ptr_step (hP : Pointers S) {c c'} (h : PtrInv f S c) (hs : Step f.code (sem f S) c c') : PtrInv f S c' := by
  cases hs with
  | @act b i j r env m hh a x m1 hra hact =>
    intro p y hp
    simp only [define] at hp
    split at hp
    · next hpi =>
      subst hpi
      cases hp
      have hc1 : ∀ z, f.kind p = .copy → f.ops p = [z] → env z = some x := by
        intro z hk hz
        simp only [Func.code, hz, List.map_cons, List.map_nil] at hra
        cases hra with
        | cons h1 h2 =>
          cases h2
          simp only [sem, act, hk] at hact
          rw [hact.1]
          exact h1
      constructor
      · intro k v hd
        cases hd with
        | here hk =>
          simp only [sem, act, hk] at hact
          rw [hact.1]
          exact hP.points _
        | @chain _ z _ r' _ hk ho hd =>
          simp only [Func.code, ho, List.map_cons] at hra
          cases hra with
          | cons h1 h2 =>
            simp only [sem, act, hk] at hact
            rw [hact.2.1]
            exact (h _ _ h1).1 _ _ hd
        | @copy _ z _ _ hk ho hd => exact (h _ _ (hc1 z hk ho)).1 _ _ hd
      · intro k v hc
        cases hc with
        | here hk =>
          simp only [sem, act, hk] at hact
          exact hact.1
        | @copy _ z _ _ hk ho hd => exact (h _ _ (hc1 z hk ho)).2 _ _ hd
    · exact h p y hp
  | @jump b i env m hh a b' env2 hra hj hsu hph hot =>
    intro p y hp
    by_cases hpp : p ∈ f.phis b'
    · have hk := (hw.phi b' p hpp).1
      constructor
      · intro k v hd
        exact absurd hk (direct_other hw hv hd)
      · intro k v hc
        exact absurd hk (direct_other hw hv hc.direct)
    · simp only [hot p hpp] at hp
      exact h p y hp

theorem einv_reach (hA : Addressing f S clean cleanRest) {c} (h : Reach f.code (sem f S) c) : EInv f S clean cleanRest c := by
  induction h with
  | start => exact ⟨fun d y hy _ _ => .inl (hA.start d y hy), hA.vars, hA.rest⟩
  | @step c c' h hs ih =>
    have hat := at_reach (S := sem f S) hv h
    obtain ⟨henv, hmem, hrest⟩ := ih
    cases hs with
    | @act b i j r env m hh a x m1 hra hact =>
      simp only at henv hmem hrest
      obtain ⟨q, hq⟩ := hat.split
      have hin : i ∈ f.insts := by
        have h1 : f.code.body b = f.body b := rfl
        simp only [h1] at hq
        simp only [Func.insts, List.mem_flatMap]
        exact ⟨b, hw.blocks b, by simp [Func.all, hq]⟩
      have hop : ∀ d ∈ f.ops i, ∀ y, env d = some y → clean y ∨ ∃ k v, Direct f k d v ∧ S.hidden v = true :=
        fun d hd y hy => henv d y hy (hw.result i hin d (.inl hd)).1 (hw.result i hin d (.inl hd)).2
      have goalOf : (f.kind i ≠ .store → f.kind i ≠ .debug → clean x ∨ ∃ k v, Direct f k i v ∧ S.hidden v = true) →
          (∀ v, clean (m1.1 v)) → cleanRest m1.2 → EInv f S clean cleanRest ⟨b, j :: r, define env i x, m1, i :: hh⟩ := by
        intro h1 h2 h3
        refine ⟨?_, h2, h3⟩
        intro d y hy hk1 hk2
        simp only [define] at hy
        split at hy
        · next hd => subst hd; cases hy; exact h1 hk1 hk2
        · exact henv d y hy hk1 hk2
      have hcl : f.kind i = .other → ∀ y ∈ a, clean y := by
        intro hk y hy
        obtain ⟨d, hd, hdy⟩ := readAll_mem hra y hy
        rcases hop d hd y hdy with h3 | ⟨k, v, h3, h4⟩
        · exact h3
        · exfalso
          rcases hA.only v h4 k d h3 i hin (.inl hd) with h5 | h5 | h5 | h5 | h5 | ⟨h5, -⟩ <;> rw [hk] at h5 <;> cases h5
      cases hk : f.kind i with
      | «variable» =>
        simp only [sem, act, hk] at hact
        obtain ⟨rfl, rfl⟩ := hact
        refine goalOf (fun _ _ => ?_) hmem hrest
        cases hh : S.hidden i with
        | false => exact .inl (hA.addr i hh)
        | true => exact .inr ⟨0, i, .here hk, hh⟩
      | chain =>
        obtain ⟨p, l, ho⟩ := hw.chain i hk
        simp only [Func.code, ho, List.map_cons] at hra
        cases hra with
        | @cons _ _ y ys h1 h2 =>
        simp only [Read] at h1
        simp only [sem, act, hk] at hact
        obtain ⟨h3, -, rfl⟩ := hact
        refine goalOf (fun _ _ => ?_) hmem hrest
        rcases hop p (by simp [ho]) y h1 with h4 | ⟨k, v, h4, h5⟩
        · exact .inl (hA.chain _ _ _ _ h3 h4)
        · exact .inr ⟨k + 1, v, .chain hk ho h4, h5⟩
      | copy =>
        obtain ⟨p, ho⟩ := hw.copy i hk
        simp only [Func.code, ho, List.map_cons, List.map_nil] at hra
        cases hra with
        | @cons _ _ y ys h1 h2 =>
        cases h2
        simp only [Read] at h1
        simp only [sem, act, hk] at hact
        obtain ⟨rfl, rfl⟩ := hact
        refine goalOf (fun _ _ => ?_) hmem hrest
        rcases hop p (by simp [ho]) x h1 with h4 | ⟨k, v, h4, h5⟩
        · exact .inl h4
        · exact .inr ⟨k + 1, v, .copy hk ho h4, h5⟩
      | load =>
        obtain ⟨p, ho⟩ := hw.load i hk
        simp only [Func.code, ho, List.map_cons, List.map_nil] at hra
        cases hra with
        | @cons _ _ y ys h1 h2 =>
        cases h2
        simp only [sem, act, hk] at hact
        cases hpt : S.points y with
        | some v =>
          simp only [hpt] at hact
          obtain ⟨rfl, rfl⟩ := hact
          exact goalOf (fun _ _ => .inl (hA.get _ _ (hmem v))) hmem hrest
        | none =>
          simp only [hpt] at hact
          obtain ⟨h3, rfl⟩ := hact
          exact goalOf (fun _ _ => .inl (hA.outLoad _ _ _ _ h3 hrest)) hmem hrest
      | store =>
        obtain ⟨p, w, ho⟩ := hw.store i hk
        simp only [Func.code, ho, List.map_cons, List.map_nil] at hra
        cases hra with
        | @cons _ _ y ys h1 h2 =>
        cases h2 with
        | @cons _ _ z ys h2 h3 =>
        cases h3
        simp only [Read] at h1 h2
        have hz : clean z := by
          rcases hop w (by simp [ho]) z h2 with h4 | ⟨k, v, h4, -⟩
          · exact h4
          · exact absurd h4 (hA.not_stored i hin hk p w ho k v)
        simp only [sem, act, hk] at hact
        cases hpt : S.points y with
        | some v =>
          simp only [hpt] at hact
          subst hact
          refine goalOf (fun h => absurd hk h) ?_ hrest
          intro u
          simp only [write]
          split
          · exact hA.put _ _ _ (hmem v) hz
          · exact hmem u
        | none =>
          simp only [hpt] at hact
          obtain ⟨h3, h4⟩ := hact
          exact goalOf (fun h => absurd hk h) (by rw [h4]; exact hmem) (hA.outStore _ _ _ _ _ h3 hz hrest)
      | debug =>
        simp only [sem, act, hk] at hact
        subst hact
        exact goalOf (fun _ h => absurd hk h) hmem hrest
      | texel =>
        simp only [sem, act, hk] at hact
        obtain ⟨h1, rfl⟩ := hact
        exact goalOf (fun _ _ => .inl (hA.texel _ _ _ _ h1 hmem hrest)) hmem hrest
      | other =>
        have hact' : S.act i a m x m1 ∧ ∀ v, S.hidden v = true → m1.1 v = m.1 v := by
          simpa [sem, act, hk] using hact
        obtain ⟨h1, h2⟩ := hact'
        obtain ⟨h3, h4, h5⟩ := hA.act _ _ _ _ _ h1 (hcl hk) hmem hrest
        refine goalOf (fun _ _ => .inl h3) ?_ h5
        intro v
        cases hh : S.hidden v with
        | false => exact h4 v hh
        | true => rw [h2 v hh]; exact hmem v
    | @jump b i env m hh a b' env2 hra hj hsu hph hot =>
      refine ⟨?_, hmem, hrest⟩
      intro d y hy hk1 hk2
      simp only at hy henv
      by_cases hd : d ∈ f.phis b'
      · obtain ⟨o, x, h1, h2, h3⟩ := hph d hd
        rw [hy] at h3
        cases h3
        have hin : d ∈ f.insts := by
          simp only [Func.insts, List.mem_flatMap]
          exact ⟨b', hw.blocks b', by simp [Func.all, hd]⟩
        simp only [Func.code, List.mem_map, Prod.mk.injEq] at h1
        obtain ⟨⟨e, b2⟩, h4, rfl, rfl⟩ := h1
        have hmem' : ∃ b, (e, b) ∈ f.args d := ⟨b2, h4⟩
        rcases henv e y h2 (hw.result d hin e (.inr hmem')).1 (hw.result d hin e (.inr hmem')).2 with h5 | ⟨k, v, h5, h6⟩
        · exact .inl h5
        · exfalso
          have hk := (hw.phi b' d hd).1
          rcases hA.only v h6 k e h5 d hin (.inr hmem') with h7 | h7 | h7 | h7 | h7 | ⟨h7, -⟩ <;> rw [hk] at h7 <;> cases h7
      · exact henv d y (by rw [← hot d hd]; exact hy) hk1 hk2

theorem ptr_reach (hP : Pointers S) {c} (h : Reach f.code (sem f S) c) : PtrInv f S c := by
  induction h with
  | start => exact ptr_start hw hv hP
  | step _ hs ih => exact ptr_step hw hv hP ih hs

/-- A store that changes a variable whose address is used only to access it goes through a pointer made from it. -/
theorem no_escape (hP : Pointers S) (hA : Addressing f S clean cleanRest) {c} (h : Reach f.code (sem f S) c) {i r}
    (hi : c.rest = i :: r) (hk : f.kind i = .store) {p l} (ho : f.ops i = p :: l) {y v} (hy : c.env p = some y)
    (hpt : S.points y = some v) (hh : S.hidden v = true) : ∃ k, Direct f k p v := by
  have hin : i ∈ f.insts := hw.inside i (by simp [hk])
  have hm : p ∈ f.ops i := by simp [ho]
  obtain ⟨hr1, hr2⟩ := hw.result i hin p (.inl hm)
  rcases (einv_reach hw hv hA h).1 p y hy hr1 hr2 with h1 | ⟨k, u, h1, h2⟩
  · rw [hA.pointer y v h1 hpt] at hh
    cases hh
  · have := (ptr_reach hw hv hP h p y hy).1 k u h1
    rw [hpt] at this
    cases this
    exact ⟨k, h1⟩

/-- What is known of a variable with a single store. -/
def Facts (f : Func I B) (S : Base I B V R) (c : Config I B V (Mem I V R)) : Prop :=
  ∀ v st e, Single f v st e →
    (f.kind st = .store → After c.hist st e → ∀ y, c.env e = some y → c.mem.1 v = y) ∧
    (st = v → c.mem.1 v = S.vars v)

theorem facts_start : Facts f S (Start f.code (sem f S)) := by
  intro v st e _
  refine ⟨?_, fun _ => rfl⟩
  rintro - ⟨l1, l2, h, -⟩
  simp [Start] at h

theorem single_object {v st e} (h : Single f v st e) (hI : Initial f S) : f.kind e ≠ .store := by
  rcases h.what with ⟨hk, -, hin, q, k, ho, -⟩ | ⟨-, ho⟩
  · exact (hw.result st hin e (.inl (by simp [ho]))).1
  · have := kind_start hw hv (hI v e h.var ho)
    simp [this]

/-- Only a store changes a hidden variable. -/
theorem act_frame {i a m x m'} (hk : f.kind i ≠ .store) (h : act f S i a m x m') {v} (hh : S.hidden v = true) :
    m'.1 v = m.1 v := by
  unfold act at h
  split at h
  · rw [h.2]
  · rw [h.2]
  · rw [h.2.2]
  · split at h <;> rw [h.2]
  · next hk' => exact absurd hk' hk
  · rw [h.2]
  · rw [h]
  · exact h.2 v hh

theorem facts_step (hP : Pointers S) (hA : Addressing f S clean cleanRest) (hI : Initial f S) {c c'}
    (h : Reach f.code (sem f S) c) (hf : Facts f S c) (hs : Step f.code (sem f S) c c') : Facts f S c' := by
  intro v st e hsi
  obtain ⟨hf1, hf2⟩ := hf v st e hsi
  have hhid := hA.hidden v hsi.var hsi.priv
  have hptr := ptr_reach hw hv hP h
  have hesc := fun {i r} hi hk {p l} ho {y} hy hpt => no_escape hw hv hP hA h (i := i) (r := r) hi hk (p := p) (l := l) ho (y := y) hy hpt hhid
  have heo := single_object hw hv hsi hI
  cases hs with
  | @act b i j r env m hh a x m1 hra hact =>
    simp only at hf1 hf2 hesc ⊢
    -- the instruction is not the store
    have frame : i ≠ st → m1.1 v = m.1 v := by
      intro hne
      by_cases hk : f.kind i = .store
      · obtain ⟨p, w, ho⟩ := hw.store i hk
        simp only [Func.code, ho, List.map_cons, List.map_nil] at hra
        cases hra with
        | @cons _ _ y ys h1 h2 =>
        cases h2 with
        | @cons _ _ z ys h2 h3 =>
        cases h3
        simp only [Read] at h1
        simp only [sem, act, hk] at hact
        cases hpt : S.points y with
        | some u =>
          simp only [hpt] at hact
          subst hact
          simp only [write]
          split
          · next huv =>
            subst huv
            obtain ⟨k, hd⟩ := hesc rfl hk ho h1 hpt
            exact absurd (hsi.only k p i w hd (hw.inside i (by simp [hk])) hk ho).1 hne
          · rfl
        | none =>
          simp only [hpt] at hact
          rw [hact.2]
      · exact act_frame hw hv hk hact hhid
    constructor
    · intro hks haft y hy
      by_cases hist : i = st
      · subst hist
        have hne : e ≠ i := by rintro rfl; exact heo hks
        simp only [define, hne, if_false] at hy
        rcases hsi.what with ⟨-, -, -, q, k, ho, hc⟩ | ⟨rfl, -⟩
        · simp only [Func.code, ho, List.map_cons, List.map_nil] at hra
          cases hra with
          | @cons _ _ z ys h1 h2 =>
          cases h2 with
          | @cons _ _ z' ys h2 h3 =>
          cases h3
          simp only [Read] at h1 h2
          rw [hy] at h2
          cases h2
          have := (hptr q z h1).2 k v hc
          subst this
          simp only [sem, act, hks, hP.points, hP.put] at hact
          subst hact
          simp [write]
        · have := hsi.var
          rw [hks] at this
          cases this
      · obtain ⟨h1, h2⟩ := After.skip (q := [i]) (h := hh) haft (by simpa using Ne.symm hist)
        simp only [List.mem_singleton] at h1
        simp only [define, h1, if_false] at hy
        rw [frame hist]
        exact hf1 hks h2 y hy
    · rintro rfl
      by_cases hist : i = st
      · subst hist
        rw [act_frame hw hv (by simp [hsi.var]) hact hhid]
        exact hf2 rfl
      · rw [frame hist]
        exact hf2 rfl
  | @jump b i env m hh a b' env2 hra hj hsu hph hot =>
    simp only at hf1 hf2 ⊢
    refine ⟨?_, hf2⟩
    intro hks haft y hy
    have hsp : st ∉ f.phis b' := not_phi hw hv (by simp [hks])
    have hsi : st ≠ i := by
      rintro rfl
      obtain ⟨pre, hp⟩ := (at_reach (S := sem f S) hv h).split
      exact not_term hw hv (i := st) (by simp [hks]) ⟨b, pre, hp⟩
    have ha' : After (((f.phis b').reverse ++ [i]) ++ hh) st e := by
      simpa [Func.code] using haft
    obtain ⟨h1, h2⟩ := After.skip ha' (by simp [hsp, hsi])
    simp at h1
    rw [hot e h1.1] at hy
    exact hf1 hks h2 y hy

theorem facts_reach (hP : Pointers S) (hA : Addressing f S clean cleanRest) (hI : Initial f S) {c}
    (h : Reach f.code (sem f S) c) : Facts f S c := by
  induction h with
  | start => exact facts_start hw hv
  | step h hs ih => exact facts_step hw hv hP hA hI h ih hs

theorem dom_load (hD : DomSound f) {v st e d} (hs : Single f v st e) (hk : f.kind d = .load) (hd : f.dom st d = true) :
    Dom f.code st d := by
  rcases hD st d hd with rfl | h
  · rcases hs.what with ⟨h1, -⟩ | ⟨rfl, -⟩
    · rw [hk] at h1; cases h1
    · have := hs.var
      rw [hk] at this; cases this
  · exact h

theorem avail_store {v st e} (hs : Single f v st e) (hk : f.kind st = .store) : Avail f.code (sem f S) e st := by
  rcases hs.what with ⟨-, -, hin, q, k, ho, -⟩ | ⟨rfl, -⟩
  · simp only [Func.insts, List.mem_flatMap] at hin
    obtain ⟨b, -, hb⟩ := hin
    exact hv.ops b st (in_body hw hv hb (by simp [hk])) e (by simp [Func.code, ho])
  · have := hs.var
    rw [hk] at this; cases this

theorem placed (hD : DomSound f) (hI : Initial f S) : Placed f.code (sem f S) (Fwd f) := by
  constructor
  · intro d e h
    have := hw.inside d (by simp [h.kind])
    simp only [Func.insts, List.mem_flatMap] at this
    obtain ⟨b, -, hb⟩ := this
    exact ⟨b, hb⟩
  · rintro d e ⟨v, st, p, k, hs, hk, ho, hc, hd⟩
    have hdom := dom_load hw hv hD hs hk hd
    rcases hs.what with ⟨h1, -⟩ | ⟨-, h1⟩
    · rcases avail_store hw hv hs h1 with h2 | ⟨h2, h3⟩
      · exact .inl h2
      · exact .inr ⟨h2.trans hdom, h3⟩
    · left
      simp [sem, hI v e hs.var h1]

/-- A replaced load reads what is used instead. -/
theorem load_value (hD : DomSound f) (hP : Pointers S) (hA : Addressing f S clean cleanRest) (hI : Initial f S)
    {c : Config I B V (Mem I V R)} (h : Reach f.code (sem f S) c)
    {d e r} (hi : c.rest = d :: r) (hfw : Fwd f d e)
    {a x m'} (hra : ReadAll c.env (f.code.ops d) a) (hact : act f S d a c.mem x m') {y} (hy : c.env e = some y) : x = y := by
  obtain ⟨v, st, p, k, hs, hk, ho, hc, hd⟩ := hfw
  simp only [Func.code, ho, List.map_cons, List.map_nil] at hra
  cases hra with
  | @cons _ _ z _ h1 h2 =>
  cases h2
  simp only [Read] at h1
  have := (ptr_reach hw hv hP h p z h1).2 k v hc
  subst this
  simp only [act, hk, hP.points, hP.get] at hact
  obtain ⟨hf1, hf2⟩ := facts_reach hw hv hP hA hI h v st e hs
  rw [hact.1]
  have hat := at_reach (S := sem f S) hv h
  rcases hs.what with ⟨h3, -⟩ | ⟨h3, h4⟩
  · refine hf1 h3 ?_ y hy
    obtain ⟨u, r', hu, ht⟩ := hat.here
    rw [hi] at hu
    cases hu
    have hdom := dom_load hw hv hD hs hk hd
    rcases avail_store hw hv hs h3 with he | ⟨he, -⟩
    · refine after_absent (hdom _ ht) ?_
      intro hm
      obtain ⟨b', hb'⟩ := hat.inside e hm
      exact hv.inside b' e hb' he
    · exact dom_after ht hdom he
  · rw [hf2 h3]
    have h5 := hI v e hs.var h4
    have := hat.global e (by simp [sem, h5])
    rw [hy] at this
    simp only [sem, h5, Option.some.injEq] at this
    exact this.symm

theorem pairs (hD : DomSound f) (hP : Pointers S) (hA : Addressing f S clean cleanRest) (hI : Initial f S) :
    Pairs f.code (sem f S) (Fwd f) := by
  refine ⟨placed hw hv hD hI, ?_⟩
  intro c h
  induction h with
  | start => exact same_start
  | @step c c' h hs ih =>
    refine same_step (S := sem f S) hv (fun d e hf b => not_phi hw hv (by simp [hf.kind])) (fun d e hf => not_term hw hv (by simp [hf.kind])) h ih hs ?_
    intro d e j r hr hfw _ a x m' hra hact y hy
    exact load_value hw hv hD hP hA hI h hr hfw hra hact hy

theorem replace (hD : DomSound f) (hP : Pointers S) (hA : Addressing f S clean cleanRest) (hI : Initial f S) :
    Replace f.code (sem f S) (Fwd f) (f.run n).sub (f.removed n) (fun c m' => m' = c.mem) := by
  have hrun := sinv_run hw hv hI hA.not_stored
  have hgone : ∀ i, f.removed n i = true → f.kind i = .load := by
    intro i hi
    exact (hrun.dead i (by simpa [Func.removed] using hi)).1.choose_spec.kind
  exact {
    valid := hv
    pairs := pairs hw hv hD hP hA hI
    chain := hrun.chain
    term := by
      rintro t ⟨b, l, h⟩
      have hk := hw.term b l t h
      cases hr : f.removed n t with
      | false => rfl
      | true => rw [hgone t hr] at hk; cases hk
    used := by
      intro b i d hi hd hr
      rcases (hrun.dead _ (by simpa [Func.removed] using hr)).2 with h1 | h1
      · exact absurd rfl (h1 d)
      · exact h1
    phi := by
      intro b l t b' p _ _ hp hr
      have hk := (hw.phi b' p hp).1
      rw [hgone p hr] at hk
      cases hk
    start := rfl
    bwd := by
      rintro c h i j r hi hg a hra x m1' m' hact rfl
      exact ⟨m1', hact, rfl⟩
    keep := by
      rintro c h i j r hi hg a hra x m1 m' hact rfl
      exact ⟨m1, hact, rfl⟩
    drop := by
      rintro c h i j r hi hg a hra x m1 m' hact rfl
      have hk := hgone i hg
      obtain ⟨p, ho⟩ := hw.load i hk
      simp only [Func.code, ho, List.map_cons, List.map_nil] at hra
      cases hra with
      | @cons _ _ y ys h1 h2 =>
      cases h2
      simp only [sem, act, hk] at hact
      split at hact <;> exact hact.2.symm
    defined := by
      intro i _
      simp [Func.code]
    free := by
      rintro c h i j r hi hg a hra
      have hk := hgone i hg
      obtain ⟨p, ho⟩ := hw.load i hk
      simp only [Func.code, ho, List.map_cons, List.map_nil] at hra
      cases hra with
      | @cons _ _ y ys h1 h2 =>
      cases h2
      simp only [Read] at h1
      have : ∃ v, S.points y = some v := by
        obtain ⟨e, v, st, q, k, -, -, hq, hc, -⟩ := (hrun.dead i (by simpa [Func.removed] using hg)).1
        rw [ho] at hq
        cases hq
        exact ⟨v, (ptr_reach hw hv hP h p y h1).1 k v hc.direct⟩
      obtain ⟨v, hpt⟩ := this
      exact ⟨_, _, by simp only [sem, act, hk, hpt]; exact ⟨rfl, rfl⟩⟩
    jump := by
      rintro c h i hi a m' hra rfl
      exact ⟨fun _ => Iff.rfl, fun d hs hm => hm.symm⟩ }

theorem after_eq : f.code.replaced (f.run n).sub (f.removed n) = f.after n := by
  simp only [Code.replaced, Func.after, Func.code, List.map_map]
  rfl

end
end Verif.SingleStore
