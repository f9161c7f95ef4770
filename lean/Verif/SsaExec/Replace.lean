import Verif.SsaExec.Lemmas
set_option linter.unusedSimpArgs false
set_option linter.unusedVariables false
set_option linter.unusedSectionVars false
/-!
# Replacing ids and removing instructions

The argument shared by the passes that replace the uses of some ids by others of the same value, and
remove instructions: the executions before and after are related, step by step. Nothing here depends on
a pass; what a pass has to show is listed in `Replace`.
-/
namespace Verif.SsaExec
variable {I B V M : Type} [DecidableEq I]

/-- An operand with its id replaced. -/
def Operand.sub (σ : I → I) : Operand I → Operand I
  | .id d => .id (σ d)
  | .undef => .undef

/-- The code with ids replaced and some instructions removed. -/
def Code.replaced (P : Code I B) (σ : I → I) (gone : I → Bool) : Code I B where
  entry := P.entry
  phis b := (P.phis b).filter fun i => !gone i
  body b := (P.body b).filter fun i => !gone i
  ops i := (P.ops i).map (Operand.sub σ)
  args p := (P.args p).map fun a => (a.1.sub σ, a.2)
  succs := P.succs

variable {P : Code I B} {S : Sem I B V M}

inductive Chain (Pair : I → I → Prop) : I → I → Prop where
  | refl (d) : Chain Pair d d
  | cons {d e e'} : Pair d e → Chain Pair e e' → Chain Pair d e'

variable {Pair : I → I → Prop}

theorem Chain.snoc {d e e'} (h : Chain Pair d e) (h' : Pair e e') : Chain Pair d e' := by
  induction h with
  | refl => exact .cons h' (.refl _)
  | cons h1 _ ih => exact .cons h1 (ih h')

theorem Chain.trans {d e e'} (h : Chain Pair d e) (h' : Chain Pair e e') : Chain Pair d e' := by
  induction h with
  | refl => exact h'
  | cons h1 _ ih => exact .cons h1 (ih h')

theorem Chain.mono {Pair' : I → I → Prop} (hm : ∀ d e, Pair d e → Pair' d e) {d e} (h : Chain Pair d e) :
    Chain Pair' d e := by
  induction h with
  | refl => exact .refl _
  | cons h1 _ ih => exact .cons (hm _ _ h1) ih

/-- `d` can be read at `u`. -/
def Avail (P : Code I B) (S : Sem I B V M) (d u : I) : Prop :=
  S.start d ≠ none ∨ (Dom P d u ∧ ¬ IsTerm P d)

/-- What each replaced id and its replacement have in common, whatever they compute. -/
structure Placed (P : Code I B) (S : Sem I B V M) (Pair : I → I → Prop) : Prop where
  inside : ∀ d e, Pair d e → ∃ b, d ∈ P.all b
  avail : ∀ d e, Pair d e → Avail P S e d

/-- The values are the same from when `d` is executed until `e` is executed again. -/
def SameAt (Pair : I → I → Prop) (c : Config I B V M) : Prop :=
  ∀ d e, Pair d e → After c.hist d e → ∀ x y, c.env d = some x → c.env e = some y → x = y

structure Pairs (P : Code I B) (S : Sem I B V M) (Pair : I → I → Prop) : Prop extends Placed P S Pair where
  same : ∀ c, Reach P S c → SameAt Pair c

theorem Chain.value (hv : Valid P fun d => S.start d ≠ none) (hp : Placed P S Pair)
    {c : Config I B V M} (h : Reach P S c) (hsame : SameAt Pair c) {u r} (hu : c.rest = u :: r) {d e} (hch : Chain Pair d e)
    (ha : Avail P S d u) : Avail P S e u ∧ ∃ x, c.env d = some x ∧ c.env e = some x := by
  have hat := at_reach (S := S) hv h
  induction hch with
  | refl d =>
    obtain ⟨x, hx⟩ := hat.value hu ha
    exact ⟨ha, x, hx, hx⟩
  | @cons d e e' hf _ ih =>
    obtain ⟨b, hb⟩ := hp.inside d e hf
    have hnG : ¬ S.start d ≠ none := hv.inside b d hb
    have hdu : Dom P d u := by
      rcases ha with ha | ha
      · exact absurd ha hnG
      · exact ha.1
    have he := hp.avail d e hf
    obtain ⟨u', r', hu', ht⟩ := hat.here
    rw [hu] at hu'
    cases hu'
    have haft : After c.hist d e := by
      rcases he with he | ⟨he, -⟩
      · refine after_absent (hdu _ ht) ?_
        intro hm
        obtain ⟨b', hb'⟩ := hat.inside e hm
        exact hv.inside b' e hb' he
      · exact dom_after ht hdu he
    have hae : Avail P S e u := by
      rcases he with he | ⟨he, hn⟩
      · exact .inl he
      · exact .inr ⟨he.trans hdu, hn⟩
    obtain ⟨h1, y, hy, hz⟩ := ih hae
    obtain ⟨x, hx⟩ := hat.value hu ha
    have := hsame d e hf haft x y hx hy
    subst this
    exact ⟨h1, x, hx, hz⟩

theorem Chain.dom (hv : Valid P fun d => S.start d ≠ none) (hp : Placed P S Pair) {d e : I}
    (hch : Chain Pair d e) : d = e ∨ S.start e ≠ none ∨ Dom P e d := by
  induction hch with
  | refl => exact .inl rfl
  | @cons d e e' hf hc ih =>
    right
    have he := hp.avail d e hf
    rcases ih with rfl | ih | ih
    · rcases he with he | he
      · exact .inl he
      · exact .inr he.1
    · exact .inl ih
    · rcases he with he | he
      · cases hc with
        | refl => exact .inl he
        | cons hf' _ =>
          obtain ⟨b, hb⟩ := hp.inside _ _ hf'
          exact absurd he (hv.inside b _ hb)
      · exact .inr (ih.trans he.1)

/-- An id that can be read is not on a cycle of replacements. -/
theorem Chain.acyclic (hv : Valid P fun d => S.start d ≠ none) (hp : Placed P S Pair)
    {u : I} {h : List I} (ht : Trail P (u :: h)) {d e} (ha : Avail P S d u) (hf : Pair d e) (hc : Chain Pair e d) : False := by
  obtain ⟨b, hb⟩ := hp.inside d e hf
  have hnG : ¬ S.start d ≠ none := hv.inside b d hb
  have hdu : Dom P d u := by
    rcases ha with ha | ha
    · exact absurd ha hnG
    · exact ha.1
  have hdd : Dom P d d := by
    rcases hc.dom hv hp with rfl | h1 | h1
    · rcases hp.avail _ _ hf with h2 | h2
      · exact absurd h2 hnG
      · exact h2.1
    · exact absurd h1 hnG
    · rcases hp.avail _ _ hf with h2 | h2
      · cases hc with
        | refl => exact absurd h2 hnG
        | cons hf' _ =>
          obtain ⟨b', hb'⟩ := hp.inside _ _ hf'
          exact absurd h2 (hv.inside b' _ hb')
      · exact h1.trans h2.1
  obtain ⟨l1, l2, rfl, -⟩ := newest (hdu h ht)
  exact dom_irrefl (Trail.drop (l1 := u :: l1) ht) hdd

theorem same_start : SameAt Pair (Start P S) := by
  intro d e _ ha
  obtain ⟨l1, l2, h, -⟩ := ha
  simp [Start] at h

/-- How to show `Pairs.same`: it is enough to look at the moment the replaced id is executed. -/
theorem same_step (hv : Valid P fun d => S.start d ≠ none)
    (hphi : ∀ d e, Pair d e → ∀ b, d ∉ P.phis b) (hterm : ∀ d e, Pair d e → ¬ IsTerm P d)
    {c c' : Config I B V M} (h : Reach P S c) (ih : SameAt Pair c) (hs : Step P S c c')
    (hact : ∀ d e j r, c.rest = d :: j :: r → Pair d e → d ≠ e → ∀ a x m', ReadAll c.env (P.ops d) a →
      S.act d a c.mem x m' → ∀ y, c.env e = some y → x = y) : SameAt Pair c' := by
  intro d e hf ha x y hx hy
  cases hs with
  | @act b i j r env m hh a v m' hr hac =>
    simp only at *
    by_cases hde : d = e
    · subst hde
      rw [hx] at hy
      cases hy
      rfl
    by_cases hdi : d = i
    · subst hdi
      have hy' : env e = some y := by
        simpa [define, Ne.symm hde] using hy
      simp only [define, if_true] at hx
      cases hx
      exact hact d e j r rfl hf hde a _ m' hr hac y hy'
    · obtain ⟨h1, h2⟩ := After.skip (q := [i]) (h := hh) ha (by simpa using hdi)
      simp at h1
      simp only [define, hdi, h1, if_false] at hx hy
      exact ih d e hf h2 x y hx hy
  | @jump b i env m hh a b' env' hr hj hsu hph hot =>
    simp only at *
    have hdp := hphi d e hf b'
    have hdi : d ≠ i := by
      rintro rfl
      obtain ⟨pre, hp⟩ := (at_reach (S := S) hv h).split
      exact hterm d e hf ⟨b, pre, hp⟩
    have ha' : After (((P.phis b').reverse ++ [i]) ++ hh) d e := by
      simpa using ha
    obtain ⟨h1, h2⟩ := After.skip ha' (by simp [hdp, hdi])
    simp at h1
    rw [hot d hdp] at hx
    rw [hot e h1.1] at hy
    exact ih d e hf h2 x y hx hy

/-- Each instruction stands at one place. -/
def Unique (P : Code I B) : Prop := ∀ y b l r b' l' r', P.all b = l ++ y :: r → P.all b' = l' ++ y :: r' → b = b' ∧ l = l'

theorem next_dom (hu : Unique P) {b l x y r} (h : P.all b = l ++ x :: y :: r) : Dom P x y := by
  intro h' ht
  have h0 : P.all b = (l ++ [x]) ++ y :: r := by simp [h]
  cases ht with
  | first h1 =>
    have := (hu y b (l ++ [x]) r P.entry [] _ h0 h1).2
    simp at this
  | @next z _ t ht he =>
    rcases he with ⟨b', l', r', h1⟩ | ⟨b', l', b'', r', h1, h2, h3⟩
    · have h1' : P.all b' = (l' ++ [z]) ++ y :: r' := by simp [h1]
      have := (hu y b (l ++ [x]) r b' (l' ++ [z]) r' h0 h1').2
      have := List.append_inj_right' this rfl
      simp at this
      simp [this]
    · have := (hu y b (l ++ [x]) r b'' [] r' h0 h3).2
      simp at this

/-- In a block, what stands before dominates. -/
theorem before_dom (hu : Unique P) {b} : ∀ (m l : List I) {x y r}, P.all b = l ++ x :: (m ++ y :: r) → Dom P x y := by
  intro m
  induction m with
  | nil => intro l x y r h; exact next_dom hu h
  | cons z m ih =>
    intro l x y r h
    exact Dom.trans (next_dom hu (r := m ++ y :: r) (by simpa using h)) (ih (l ++ [x]) (by simpa using h))

theorem flatMap_unique {f : B → List I} : ∀ (bs : List B), (bs.flatMap f).Nodup → ∀ b ∈ bs, ∀ b' ∈ bs, ∀ y l r l' r',
    f b = l ++ y :: r → f b' = l' ++ y :: r' → b = b' ∧ l = l' := by
  have one : ∀ (l l' : List I) (y : I) (r r' : List I), (l ++ y :: r).Nodup → l ++ y :: r = l' ++ y :: r' → l = l' := by
    intro l
    induction l with
    | nil =>
      intro l' y r r' hn h
      cases l' with
      | nil => rfl
      | cons z l' =>
        simp only [List.nil_append, List.cons_append, List.cons.injEq] at h
        obtain ⟨rfl, rfl⟩ := h
        simp at hn
    | cons x l ih =>
      intro l' y r r' hn h
      cases l' with
      | nil =>
        simp only [List.nil_append, List.cons_append, List.cons.injEq] at h
        obtain ⟨rfl, rfl⟩ := h
        simp at hn
      | cons z l' =>
        simp only [List.cons_append, List.cons.injEq] at h
        obtain ⟨rfl, h⟩ := h
        simp only [List.cons_append, List.nodup_cons] at hn
        rw [ih l' y r r' hn.2 h]
  intro bs
  induction bs with
  | nil => intro _ b hb; cases hb
  | cons b0 bs ih =>
    intro hn b hb b' hb' y l r l' r' h h'
    simp only [List.flatMap_cons, List.nodup_append] at hn
    obtain ⟨hn1, hn2, hn3⟩ := hn
    have hy : y ∈ f b := by simp [h]
    have hy' : y ∈ f b' := by simp [h']
    simp only [List.mem_cons] at hb hb'
    rcases hb with rfl | hb <;> rcases hb' with rfl | hb'
    · refine ⟨rfl, ?_⟩
      rw [h] at hn1 h'
      exact one l l' y r r' hn1 h'
    · exact (hn3 y hy y (List.mem_flatMap.mpr ⟨b', hb', hy'⟩) rfl).elim
    · exact (hn3 y hy' y (List.mem_flatMap.mpr ⟨b, hb, hy⟩) rfl).elim
    · exact ih hn2 b hb b' hb' y l r l' r' h h'

/-- What a pass that replaces ids by `σ` and removes the instructions `gone` has to show. `W` relates a
point of an execution before to the memory after. -/
structure Replace (P : Code I B) (S : Sem I B V M) (Pair : I → I → Prop) (σ : I → I) (gone : I → Bool)
    (W : Config I B V M → M → Prop) : Prop where
  valid : Valid P fun d => S.start d ≠ none
  pairs : Pairs P S Pair
  chain : ∀ d, Chain Pair d (σ d)
  /-- terminators stay -/
  term : ∀ t, IsTerm P t → gone t = false
  /-- an id that is removed is not used instead of another, except on a cycle -/
  used : ∀ b i d, i ∈ P.all b → (.id d ∈ P.ops i ∨ ∃ b', (.id d, b') ∈ P.args i) → gone (σ d) = true →
    ∃ e, Pair (σ d) e ∧ Chain Pair e (σ d)
  /-- a phi that is removed has an operand for every edge -/
  phi : ∀ b l t b' p, P.body b = l ++ [t] → b' ∈ P.succs t → p ∈ P.phis b' → gone p = true →
    ∃ d, (.id d, b) ∈ P.args p
  start : W (Start P S) S.mem
  bwd : ∀ c, Reach P S c → ∀ i j r, c.rest = i :: j :: r → gone i = false → ∀ a, ReadAll c.env (P.ops i) a →
    ∀ x m1' m', S.act i a m' x m1' → W c m' → ∃ m1, S.act i a c.mem x m1 ∧
      W ⟨c.block, j :: r, define c.env i x, m1, i :: c.hist⟩ m1'
  keep : ∀ c, Reach P S c → ∀ i j r, c.rest = i :: j :: r → gone i = false → ∀ a, ReadAll c.env (P.ops i) a →
    ∀ x m1 m', S.act i a c.mem x m1 → W c m' → ∃ m1', S.act i a m' x m1' ∧
      W ⟨c.block, j :: r, define c.env i x, m1, i :: c.hist⟩ m1'
  drop : ∀ c, Reach P S c → ∀ i j r, c.rest = i :: j :: r → gone i = true → ∀ a, ReadAll c.env (P.ops i) a →
    ∀ x m1 m', S.act i a c.mem x m1 → W c m' →
      W ⟨c.block, j :: r, define c.env i x, m1, i :: c.hist⟩ m'
  defined : ∀ i, gone i = true → .undef ∉ P.ops i
  /-- a removed instruction never blocks -/
  free : ∀ c, Reach P S c → ∀ i j r, c.rest = i :: j :: r → gone i = true → ∀ a, ReadAll c.env (P.ops i) a →
    ∃ x m1, S.act i a c.mem x m1
  jump : ∀ c, Reach P S c → ∀ i, c.rest = [i] → ∀ a m', ReadAll c.env (P.ops i) a → W c m' →
    (∀ b', S.jump i a c.mem b' ↔ S.jump i a m' b') ∧
    ∀ d : Config I B V M, Step P S c d → d.mem = c.mem → W d m'

/-- The relation kept: the same block, the same instructions to come but for those removed, the same
values but for those removed. -/
structure Rel (P : Code I B) (S : Sem I B V M) (gone : I → Bool) (W : Config I B V M → M → Prop)
    (c c' : Config I B V M) : Prop where
  block : c'.block = c.block
  rest : c'.rest = c.rest.filter fun i => !gone i
  hist : c'.hist = c.hist.filter fun i => !gone i
  env : ∀ d, gone d = false → c'.env d = c.env d
  mem : W c c'.mem

variable {σ : I → I} {gone : I → Bool} {W : Config I B V M → M → Prop}

theorem Rel.read (hR : Replace P S Pair σ gone W) {c c' : Config I B V M} (h : Reach P S c) (hr : Rel P S gone W c c')
    {u r} (hu : c.rest = u :: r) {o : Operand I} (ho : ∀ d, o = .id d → Avail P S d u ∧
      ∃ b i, i ∈ P.all b ∧ (.id d ∈ P.ops i ∨ ∃ b', (.id d, b') ∈ P.args i)) (x : V) :
    Read c.env o x ↔ Read c'.env (o.sub σ) x := by
  cases o with
  | undef => simp [Read, Operand.sub]
  | id d =>
    obtain ⟨ha, b, i, hi, hd⟩ := ho d rfl
    obtain ⟨ha', y, h1, h2⟩ := (hR.chain d).value hR.valid hR.pairs.toPlaced h (hR.pairs.same c h) hu ha
    have hg : gone (σ d) = false := by
      cases hg : gone (σ d) with
      | false => rfl
      | true =>
        obtain ⟨e, h3, h4⟩ := hR.used b i d hi hd hg
        obtain ⟨u', r', hu', ht⟩ := (at_reach hR.valid h).here
        rw [hu] at hu'
        cases hu'
        exact (Chain.acyclic hR.valid hR.pairs.toPlaced ht ha' h3 h4).elim
    simp only [Read, Operand.sub]
    rw [hr.env _ hg, h1, h2]

theorem readAll_iff {env env' : I → Option V} {f : Operand I → Operand I} : ∀ (os : List (Operand I)) (a : List V),
    (∀ o ∈ os, ∀ x, Read env o x ↔ Read env' (f o) x) → (ReadAll env os a ↔ ReadAll env' (os.map f) a) := by
  intro os
  induction os with
  | nil =>
    intro a _
    constructor <;> (intro h; cases h; exact .nil)
  | cons o os ih =>
    intro a ho
    constructor
    · intro h
      cases h with
      | cons h1 h2 => exact .cons ((ho o (by simp) _).mp h1) ((ih _ fun o hm => ho o (by simp [hm])).mp h2)
    · intro h
      cases h with
      | cons h1 h2 => exact .cons ((ho o (by simp) _).mpr h1) ((ih _ fun o hm => ho o (by simp [hm])).mpr h2)

theorem Rel.readAll (hR : Replace P S Pair σ gone W) {c c' : Config I B V M} (h : Reach P S c)
    (hr : Rel P S gone W c c') {u r} (hu : c.rest = u :: r) (a : List V) :
    ReadAll c.env (P.ops u) a ↔ ReadAll c'.env ((P.replaced σ gone).ops u) a := by
  apply readAll_iff
  intro o ho x
  obtain ⟨pre, hp⟩ := (at_reach hR.valid h).split
  have hub : u ∈ P.body c.block := by rw [hp, hu]; simp
  refine hr.read hR h hu ?_ x
  rintro d rfl
  exact ⟨hR.valid.ops _ u hub d ho, c.block, u, by simp [Code.all, hub], .inl ho⟩

/-- The last instruction to come is a terminator. -/
theorem rest_term (hR : Replace P S Pair σ gone W) {c : Config I B V M} (h : Reach P S c) {l t}
    (hl : c.rest = l ++ [t]) : gone t = false := by
  obtain ⟨pre, hp⟩ := (at_reach hR.valid h).split
  exact hR.term t ⟨c.block, pre ++ l, by rw [hp, hl]; simp⟩

theorem rest_filter_ne (hR : Replace P S Pair σ gone W) {c : Config I B V M} (h : Reach P S c) {l r}
    (hl : c.rest = l ++ r) (hr : r ≠ []) : (r.filter fun i => !gone i) ≠ [] := by
  have e : r = r.dropLast ++ [r.getLast hr] := (List.dropLast_concat_getLast hr).symm
  have := rest_term hR h (l := l ++ r.dropLast) (t := r.getLast hr) (by rw [hl, List.append_assoc, ← e])
  intro hf
  rw [e] at hf
  simp [this] at hf

theorem avail_arg (hR : Replace P S Pair σ gone W) {c : Config I B V M} (h : Reach P S c) {i} (hi : c.rest = [i])
    {b' p d} (hs : b' ∈ P.succs i) (hp : p ∈ P.phis b') (hd : (.id d, c.block) ∈ P.args p) : Avail P S d i := by
  obtain ⟨pre, hpp⟩ := (at_reach hR.valid h).split
  rw [hi] at hpp
  exact hR.valid.args b' p hp d c.block hd pre i hpp hs

theorem step_fwd (hR : Replace P S Pair σ gone W) {c c' d : Config I B V M} (h : Reach P S c)
    (hr : Rel P S gone W c c') (hst : Step P S c d) :
    Rel P S gone W d c' ∨ ∃ d', Step (P.replaced σ gone) S c' d' ∧ Rel P S gone W d d' := by
  obtain ⟨b0, rest', env', mem', hist'⟩ := c'
  have hst0 := hst
  cases hst with
  | @act b i j r env m hh a x m1 hra hact =>
    obtain ⟨e1, e2, e3, e4, e5⟩ := id hr
    simp only at e1 e2 e3 e4 e5
    cases hg : gone i with
    | true =>
      left
      refine ⟨e1, ?_, ?_, ?_, hR.drop _ h i j r rfl hg a hra x m1 mem' hact e5⟩
      · simp only [e2, List.filter_cons, hg]
        simp
      · simp only [e3, List.filter_cons, hg]
        simp
      · intro d hd
        have : d ≠ i := by rintro rfl; rw [hg] at hd; cases hd
        simp only [define, this, if_false]
        exact e4 d hd
    | false =>
      right
      obtain ⟨m1', ha', hw⟩ := hR.keep _ h i j r rfl hg a hra x m1 mem' hact e5
      have hne := rest_filter_ne hR h (l := [i]) (r := j :: r) rfl (by simp)
      obtain ⟨j', r', hjr⟩ := List.exists_cons_of_ne_nil hne
      have hrest : rest' = i :: j' :: r' := by
        rw [e2, List.filter_cons, hjr]
        simp [hg]
      subst e1 hrest
      refine ⟨⟨b0, j' :: r', define env' i x, m1', i :: hist'⟩, .act ((hr.readAll hR h rfl a).mp hra) ha',
        rfl, hjr.symm, ?_, ?_, hw⟩
      · simp [List.filter_cons, hg, e3]
      · intro d hd
        simp only [define]
        split
        · rfl
        · exact e4 d hd
  | @jump b i env m hh a b' env2 hra hj hsu hph hot =>
    right
    obtain ⟨e1, e2, e3, e4, e5⟩ := id hr
    simp only at e1 e2 e3 e4 e5
    have hg := rest_term hR h (l := []) (t := i) rfl
    have hrest : rest' = [i] := by
      rw [e2]; simp [hg]
    subst e1 hrest
    obtain ⟨hjj, hw⟩ := hR.jump _ h i rfl a mem' hra e5
    refine ⟨⟨b', (P.replaced σ gone).body b', fun p => if p ∈ P.phis b' ∧ gone p = false then env2 p else env' p, mem',
      ((P.replaced σ gone).phis b').reverse ++ i :: hist'⟩, .jump ((hr.readAll hR h rfl a).mp hra) ((hjj b').mp hj) hsu ?_ ?_, rfl, rfl, ?_, ?_, ?_⟩
    · intro p hp
      simp only [Code.replaced, List.mem_filter, Bool.not_eq_true'] at hp
      obtain ⟨o, x, ho, hx, he⟩ := hph p hp.1
      refine ⟨o.sub σ, x, ?_, ?_, by simp [hp, he]⟩
      · simp only [Code.replaced, List.mem_map]
        exact ⟨_, ho, rfl⟩
      · refine (hr.read hR h rfl ?_ x).mp hx
        rintro d rfl
        exact ⟨avail_arg hR h rfl hsu hp.1 ho, b', p, by simp [Code.all, hp.1], .inr ⟨_, ho⟩⟩
    · intro d hd
      simp only [Code.replaced, List.mem_filter, Bool.not_eq_true'] at hd
      simp [hd]
    · simp [Code.replaced, List.filter_append, List.filter_cons, hg, e3, List.filter_reverse]
    · intro d hd
      simp only
      by_cases hdp : d ∈ P.phis b'
      · simp [hdp, hd]
      · simp only [hdp, false_and, if_false]
        rw [e4 d hd, hot d hdp]
    · exact hw _ hst0 rfl

/-- The execution before runs through the instructions that are removed. -/
theorem catch_up (hR : Replace P S Pair σ gone W) {c' : Config I B V M} : ∀ (n : Nat) {c : Config I B V M},
    c.rest.length = n → Reach P S c → Rel P S gone W c c' →
    ∃ c1, Reach P S c1 ∧ Rel P S gone W c1 c' ∧ ∃ i t, c1.rest = i :: t ∧ gone i = false := by
  intro n
  induction n with
  | zero =>
    intro c hn h _
    obtain ⟨u, r, hu, -⟩ := (at_reach hR.valid h).here
    rw [hu] at hn
    simp at hn
  | succ n ih =>
    intro c hn h hr
    obtain ⟨i, t, hu, -⟩ := (at_reach hR.valid h).here
    cases hg : gone i with
    | false => exact ⟨c, h, hr, i, t, hu, hg⟩
    | true =>
      cases t with
      | nil =>
        rw [rest_term hR h (l := []) (t := i) hu] at hg
        cases hg
      | cons j r =>
        obtain ⟨b, rest, env, m, hh⟩ := c
        simp only at hu
        subst hu
        have hav : ∃ a, ReadAll env (P.ops i) a := by
          obtain ⟨pre, hp⟩ := (at_reach hR.valid h).split
          have hib : i ∈ P.body b := by
            simp only at hp
            rw [hp]; simp
          have : ∀ os : List (Operand I), (∀ o ∈ os, o ∈ P.ops i) → ∃ a, ReadAll env os a := by
            intro os
            induction os with
            | nil => intro _; exact ⟨[], .nil⟩
            | cons o os ih =>
              intro ho
              obtain ⟨a, ha⟩ := ih fun o h => ho o (by simp [h])
              cases o with
              | undef => exact absurd (ho _ (by simp)) (hR.defined i hg)
              | id d =>
                obtain ⟨x, hx⟩ := (at_reach hR.valid h).value rfl (hR.valid.ops b i hib d (ho _ (by simp)))
                exact ⟨x :: a, .cons hx ha⟩
          exact this _ fun _ h => h
        obtain ⟨a, ha⟩ := hav
        obtain ⟨x, m1, hact⟩ := hR.free _ h i j r rfl hg a ha
        have hst : Step P S ⟨b, i :: j :: r, env, m, hh⟩ ⟨b, j :: r, define env i x, m1, i :: hh⟩ := .act ha hact
        refine ih ?_ (.step h hst) ?_
        · simpa using hn
        · obtain ⟨e1, e2, e3, e4, e5⟩ := hr
          simp only at e1 e2 e3 e4 e5
          refine ⟨e1, ?_, ?_, ?_, hR.drop _ h i j r rfl hg a ha x m1 _ hact e5⟩
          · simp only [e2, List.filter_cons, hg]
            simp
          · simp only [e3, List.filter_cons, hg]
            simp
          · intro d hd
            have : d ≠ i := by rintro rfl; rw [hg] at hd; cases hd
            simp only [define, this, if_false]
            exact e4 d hd

theorem step_bwd (hR : Replace P S Pair σ gone W) {c c' d' : Config I B V M} (h : Reach P S c)
    (hr : Rel P S gone W c c') (hst : Step (P.replaced σ gone) S c' d') :
    ∃ d, Reach P S d ∧ Rel P S gone W d d' := by
  obtain ⟨c1, h1, hr1, i0, t, hi0, hg⟩ := catch_up hR _ rfl h hr
  obtain ⟨b0, rest0, env0, mem0, hist0⟩ := c1
  simp only at hi0
  subst hi0
  cases hst with
  | @act b i j r env m hh a x m1 hra hact =>
    obtain ⟨e1, e2, e3, e4, e5⟩ := id hr1
    simp only at e1 e2 e3 e4 e5
    subst e1
    simp only [List.filter_cons, hg, Bool.not_false, if_true, List.cons.injEq] at e2
    obtain ⟨rfl, e2⟩ := e2
    cases t with
    | nil => simp at e2
    | cons j0 r0 =>
      have hra' := (hr1.readAll hR h1 rfl a).mpr hra
      obtain ⟨m1', ha', hw⟩ := hR.bwd _ h1 i j0 r0 rfl hg a hra' x m1 m hact e5
      refine ⟨_, .step h1 (.act hra' ha'), rfl, e2, ?_, ?_, hw⟩
      · simp [List.filter_cons, hg, e3]
      · intro d hd
        simp only [define]
        split
        · rfl
        · exact e4 d hd
  | @jump b i env m hh a b' env2 hra hj hsu hph hot =>
    obtain ⟨e1, e2, e3, e4, e5⟩ := id hr1
    simp only at e1 e2 e3 e4 e5
    subst e1
    simp only [List.filter_cons, hg, Bool.not_false, if_true, List.cons.injEq] at e2
    obtain ⟨rfl, e2⟩ := e2
    have ht : t = [] := by
      cases t with
      | nil => rfl
      | cons j r => exact absurd e2.symm (rest_filter_ne hR h1 (l := [i]) (r := j :: r) rfl (by simp))
    subst ht
    have hra' := (hr1.readAll hR h1 rfl a).mpr hra
    obtain ⟨hjj, hw⟩ := hR.jump _ h1 i rfl a m hra' e5
    obtain ⟨pre, hpre⟩ := (at_reach hR.valid h1).split
    simp only at hpre
    have hphi : ∀ p, p ∈ P.phis b' → gone p = true → ∃ x d, (.id d, b) ∈ P.args p ∧ env0 d = some x := by
      intro p hp hgp
      obtain ⟨d, hd⟩ := hR.phi b pre i b' p hpre hsu hp hgp
      obtain ⟨x, hx⟩ := (at_reach hR.valid h1).value rfl (avail_arg hR h1 rfl hsu hp hd)
      exact ⟨x, d, hd, hx⟩
    have hst' : Step P S ⟨b, [i], env0, mem0, hist0⟩ ⟨b', P.body b', fun p =>
        if hp : p ∈ P.phis b' then
          if hgp : gone p = true then some (Classical.choose (hphi p hp hgp)) else env2 p
        else env0 p, mem0, (P.phis b').reverse ++ i :: hist0⟩ := by
      refine .jump hra' ((hjj b').mpr hj) hsu ?_ ?_
      · intro p hp
        by_cases hgp : gone p = true
        · obtain ⟨d, hd, hx⟩ := Classical.choose_spec (hphi p hp hgp)
          exact ⟨.id d, _, hd, hx, by simp [hp, hgp]⟩
        · have hgp' : gone p = false := by simpa using hgp
          obtain ⟨o', x, ho', hx, he⟩ := hph p (by simp [Code.replaced, hp, hgp'])
          simp only [Code.replaced, List.mem_map] at ho'
          obtain ⟨⟨o, b2⟩, ho, heq⟩ := ho'
          simp only [Prod.mk.injEq] at heq
          obtain ⟨rfl, rfl⟩ := heq
          refine ⟨o, x, ho, ?_, by simp [hp, hgp', he]⟩
          refine (hr1.read hR h1 rfl ?_ x).mpr hx
          rintro d rfl
          exact ⟨avail_arg hR h1 rfl hsu hp ho, b', p, by simp [Code.all, hp], .inr ⟨_, ho⟩⟩
      · intro d hd
        simp [hd]
    refine ⟨_, .step h1 hst', rfl, rfl, ?_, ?_, hw _ hst' rfl⟩
    · simp [Code.replaced, List.filter_append, List.filter_cons, hg, e3, List.filter_reverse]
    · intro d hd
      simp only
      by_cases hdp : d ∈ P.phis b'
      · simp [hdp, hd]
      · simp only [hdp, dite_false]
        rw [hot d (by simp [Code.replaced, hdp]), e4 d hd]

theorem rel_start (hR : Replace P S Pair σ gone W) : Rel P S gone W (Start P S) (Start (P.replaced σ gone) S) :=
  ⟨rfl, rfl, rfl, fun _ _ => rfl, hR.start⟩

/-- Every point reached before is matched by one reached after. -/
theorem sim_fwd (hR : Replace P S Pair σ gone W) {c : Config I B V M} (h : Reach P S c) :
    ∃ c', Reach (P.replaced σ gone) S c' ∧ Rel P S gone W c c' := by
  induction h with
  | start => exact ⟨_, .start, rel_start hR⟩
  | step h hst ih =>
    obtain ⟨c', h1, h2⟩ := ih
    rcases step_fwd hR h h2 hst with h3 | ⟨d', h3, h4⟩
    · exact ⟨c', h1, h3⟩
    · exact ⟨d', .step h1 h3, h4⟩

/-- Every point reached after is matched by one reached before. -/
theorem sim_bwd (hR : Replace P S Pair σ gone W) {c' : Config I B V M} (h : Reach (P.replaced σ gone) S c') :
    ∃ c, Reach P S c ∧ Rel P S gone W c c' := by
  induction h with
  | start => exact ⟨_, .start, rel_start hR⟩
  | step h hst ih =>
    obtain ⟨c, h1, h2⟩ := ih
    exact step_bwd hR h1 h2 hst

/-! ## The result is in SSA form -/

theorem filter_split {p : I → Bool} : ∀ (L l : List I) {x r}, L.filter p = l ++ x :: r →
    ∃ l' r', L = l' ++ x :: r' ∧ l'.filter p = l ∧ r'.filter p = r := by
  intro L
  induction L with
  | nil => intro l x r h; simp at h
  | cons y L ih =>
    intro l x r h
    by_cases hy : p y = true
    · rw [List.filter_cons_of_pos hy] at h
      cases l with
      | nil =>
        simp only [List.nil_append, List.cons.injEq] at h
        obtain ⟨rfl, rfl⟩ := h
        exact ⟨[], L, rfl, rfl, rfl⟩
      | cons z l =>
        simp only [List.cons_append, List.cons.injEq] at h
        obtain ⟨rfl, h⟩ := h
        obtain ⟨l', r', rfl, h1, h2⟩ := ih l h
        exact ⟨y :: l', r', rfl, by rw [List.filter_cons_of_pos hy, h1], h2⟩
    · rw [List.filter_cons_of_neg hy] at h
      obtain ⟨l', r', rfl, h1, h2⟩ := ih l h
      exact ⟨y :: l', r', rfl, by rw [List.filter_cons_of_neg hy, h1], h2⟩

theorem Trail.along {b : B} : ∀ (l pre : List I) {x h y r}, P.all b = pre ++ x :: (l ++ y :: r) → Trail P (x :: h) →
    Trail P (y :: (l.reverse ++ x :: h)) := by
  intro l
  induction l with
  | nil => intro pre x h y r he ht; exact .next ht (.inl ⟨b, pre, r, he⟩)
  | cons z l ih =>
    intro pre x h y r he ht
    have := ih (pre ++ [x]) (x := z) (h := x :: h) (y := y) (r := r) (by simpa using he) (.next ht (.inl ⟨b, pre, l ++ y :: r, he⟩))
    simpa using this

/-- From the end of a block, or the start of the function, to an instruction of a block. -/
theorem Trail.into {b : B} {h : List I} {l y r} (he : P.all b = l ++ y :: r)
    (ht : ∀ z r', P.all b = z :: r' → Trail P (z :: h)) : Trail P (y :: (l.reverse ++ h)) := by
  cases l with
  | nil => exact ht y r he
  | cons z l =>
    have := Trail.along l [] (by simpa using he) (ht z _ (by simpa using he))
    simpa using this

theorem replaced_all (b : B) : (P.replaced σ gone).all b = (P.all b).filter fun i => !gone i := by
  simp [Code.all, Code.replaced]

theorem replaced_term (hterm : ∀ t, IsTerm P t → gone t = false) (hne : ∀ b, P.body b ≠ []) {b l x}
    (he : (P.replaced σ gone).body b = l ++ [x]) : ∃ l', P.body b = l' ++ [x] := by
  obtain ⟨l0, t, e⟩ : ∃ l0 t, P.body b = l0 ++ [t] := ⟨_, _, (List.dropLast_concat_getLast (hne b)).symm⟩
  have hg := hterm _ ⟨b, _, e⟩
  have h1 : (P.replaced σ gone).body b = (P.body b).filter fun i => !gone i := rfl
  rw [h1, e, List.filter_append] at he
  simp only [hg, Bool.not_false, List.filter_cons_of_pos, List.filter_nil] at he
  have := (List.append_inj' he rfl).2
  simp only [List.cons.injEq, and_true] at this
  exact ⟨l0, by rw [e, this]⟩

/-- A path after the removals is a path before without the removed instructions. -/
theorem Trail.lift (hterm : ∀ t, IsTerm P t → gone t = false) (hne : ∀ b, P.body b ≠ []) {u h}
    (ht : Trail (P.replaced σ gone) (u :: h)) : ∃ h', Trail P (u :: h') ∧ (h'.filter fun i => !gone i) = h := by
  generalize hl : u :: h = l at ht
  induction ht generalizing u h with
  | @first x r he =>
    cases hl
    rw [replaced_all] at he
    obtain ⟨l', r', h1, h2, -⟩ := filter_split _ [] (by simpa using he)
    refine ⟨l'.reverse ++ [], Trail.into h1 ?_, by simpa using h2⟩
    intro z r'' h3
    exact .first h3
  | @next x y l ht he ih =>
    cases hl
    obtain ⟨h', ht', hf⟩ := ih rfl
    have hx : gone x = false := by
      rcases he with ⟨b, l1, r1, he⟩ | ⟨b, l1, b', r1, he, -, -⟩
      · have : x ∈ (P.replaced σ gone).all b := by rw [he]; simp
        rw [replaced_all] at this
        simpa using (List.mem_filter.1 this).2
      · have : x ∈ (P.replaced σ gone).body b := by rw [he]; simp
        simpa using (List.mem_filter.1 this).2
    rcases he with ⟨b, l1, r1, he⟩ | ⟨b, l1, b', r1, he, hs, ha⟩
    · rw [replaced_all] at he
      obtain ⟨l', r', h1, h2, h3⟩ := filter_split _ l1 he
      obtain ⟨l2, r2, h4, h5, -⟩ := filter_split r' [] (by simpa using h3)
      subst h4
      refine ⟨_, Trail.along l2 l' h1 ht', ?_⟩
      simp [hx, hf]
      simpa using h5
    · rw [replaced_all] at ha
      obtain ⟨l0, e⟩ := replaced_term hterm hne he
      obtain ⟨l2, r2, h4, h5, -⟩ := filter_split (P.all b') [] (by simpa using ha)
      refine ⟨_, Trail.into (h := x :: h') h4 ?_, ?_⟩
      · intro z r' h6
        exact .next ht' (.inr ⟨b, _, b', r', e, hs, h6⟩)
      · simp [hx, hf]
        simpa using h5

/-- The code after the replacement is again in SSA form; in particular nothing removed is used in it. -/
theorem replaced_valid (hR : Replace P S Pair σ gone W) : Valid (P.replaced σ gone) fun d => S.start d ≠ none := by
  have hv := hR.valid
  have hav : ∀ (u : I), gone u = false → ∀ d, (∃ b i, i ∈ P.all b ∧ (.id d ∈ P.ops i ∨ ∃ b', (.id d, b') ∈ P.args i)) → Avail P S d u →
      Avail (P.replaced σ gone) S (σ d) u := by
    rintro u hu d ⟨b, i, hi, hd⟩ ha
    by_cases hreach : ∃ h, Trail P (u :: h)
    · obtain ⟨h, ht⟩ := hreach
      have ha' : Avail P S (σ d) u := by
        rcases (hR.chain d).dom hv hR.pairs.toPlaced with h1 | h1 | h1
        · rw [← h1]; exact ha
        · exact .inl h1
        · rcases ha with ha | ha
          · have hc := hR.chain d
            generalize σ d = e at *
            cases hc with
            | refl => exact .inl ha
            | cons hp _ =>
              obtain ⟨b, hb⟩ := hR.pairs.inside _ _ hp
              exact absurd ha (hv.inside b d hb)
          · refine .inr ⟨Dom.trans h1 ha.1, ?_⟩
            rintro hT
            have hc := hR.chain d
            generalize σ d = e at *
            have : ∀ {d e}, Chain Pair d e → d = e ∨ ∃ d', Pair d' e := by
              intro d e hc
              induction hc with
              | refl => exact .inl rfl
              | @cons d e e' h1 _ ih =>
                rcases ih with rfl | ih
                · exact .inr ⟨d, h1⟩
                · exact .inr ih
            rcases this hc with rfl | ⟨d', hp⟩
            · exact ha.2 hT
            · rcases hR.pairs.avail _ _ hp with h3 | h3
              · obtain ⟨b, l, hb⟩ := hT
                exact absurd h3 (hv.inside b e (by simp [Code.all, hb]))
              · exact h3.2 hT
      rcases ha' with h1 | ⟨h1, h2⟩
      · exact .inl h1
      · right
        have hg : gone (σ d) = false := by
          cases hg : gone (σ d) with
          | false => rfl
          | true =>
            obtain ⟨e, h3, h4⟩ := hR.used b i d hi hd hg
            exact absurd (Chain.acyclic hv hR.pairs.toPlaced ht (.inr ⟨h1, h2⟩) h3 h4) id
        refine ⟨?_, ?_⟩
        · intro h' ht'
          obtain ⟨h'', ht'', hf⟩ := ht'.lift hR.term hv.body_ne
          rw [← hf]
          simp [hg, h1 h'' ht'']
        · rintro ⟨b', l, hb⟩
          obtain ⟨l', hl'⟩ := replaced_term hR.term hv.body_ne hb
          exact h2 ⟨b', l', hl'⟩
    · by_cases hG : S.start (σ d) ≠ none
      · exact .inl hG
      · refine .inr ⟨?_, ?_⟩
        · intro h' ht'
          obtain ⟨h'', ht'', -⟩ := ht'.lift hR.term hv.body_ne
          exact absurd ⟨_, ht''⟩ hreach
        · rintro ⟨b', l, hb⟩
          obtain ⟨l', hl'⟩ := replaced_term hR.term hv.body_ne hb
          have hT : IsTerm P (σ d) := ⟨b', l', hl'⟩
          have hc := hR.chain d
          generalize σ d = e at *
          have : ∀ {d e}, Chain Pair d e → d = e ∨ ∃ d', Pair d' e := by
            intro d e hc
            induction hc with
            | refl => exact .inl rfl
            | @cons d e e' h1 _ ih =>
              rcases ih with rfl | ih
              · exact .inr ⟨d, h1⟩
              · exact .inr ih
          rcases this hc with rfl | ⟨d', hp⟩
          · rcases ha with ha | ha
            · exact hG ha
            · exact ha.2 hT
          · rcases hR.pairs.avail _ _ hp with h3 | h3
            · exact hG h3
            · exact h3.2 hT
  have hsub : ∀ {os : List (Operand I)} {d}, .id d ∈ os.map (Operand.sub σ) → ∃ d', .id d' ∈ os ∧ d = σ d' := by
    intro os d h
    simp only [List.mem_map] at h
    obtain ⟨o, h1, h2⟩ := h
    cases o with
    | id d' => simp only [Operand.sub, Operand.id.injEq] at h2; exact ⟨d', h1, h2.symm⟩
    | undef => simp [Operand.sub] at h2
  have hmem : ∀ {b i}, i ∈ (P.replaced σ gone).all b → i ∈ P.all b ∧ gone i = false := by
    intro b i h
    rw [replaced_all] at h
    simpa using h
  refine ⟨?_, ?_, ?_, ?_, ?_, ?_, ?_⟩
  · intro b hb
    obtain ⟨l0, t, e⟩ : ∃ l0 t, P.body b = l0 ++ [t] := ⟨_, _, (List.dropLast_concat_getLast (hv.body_ne b)).symm⟩
    have hg := hR.term _ ⟨b, _, e⟩
    have : (P.replaced σ gone).body b = (P.body b).filter fun i => !gone i := rfl
    rw [this, e] at hb
    simp [hg] at hb
  · show (P.phis P.entry).filter _ = []
    rw [hv.entry_phis]; rfl
  · intro b i hi
    exact hv.inside b i (hmem hi).1
  · intro b b' i hi hi'
    exact hv.phi_body b b' i (List.mem_filter.1 hi).1 (List.mem_filter.1 hi').1
  · intro b i hi d hd
    obtain ⟨hi1, hi2⟩ := List.mem_filter.1 hi
    obtain ⟨d', h1, rfl⟩ := hsub hd
    exact hav i (by simpa using hi2) d' ⟨b, i, by simp [Code.all, hi1], .inl h1⟩ (hv.ops b i hi1 d' h1)
  · intro b p hp d b' hd l t hb hs
    obtain ⟨hp1, hp2⟩ := List.mem_filter.1 hp
    simp only [Code.replaced, List.mem_map, Prod.mk.injEq] at hd
    obtain ⟨⟨o, b2⟩, h1, h2, h3⟩ := hd
    simp only at h2 h3
    subst h3
    obtain ⟨l', hl'⟩ := replaced_term hR.term hv.body_ne hb
    cases o with
    | undef => simp [Operand.sub] at h2
    | id d' =>
      simp only [Operand.sub, Operand.id.injEq] at h2
      subst h2
      exact hav t (hR.term t ⟨b2, l', hl'⟩) d' ⟨b, p, by simp [Code.all, hp1], .inr ⟨b2, h1⟩⟩ (hv.args b p hp1 d' b2 h1 l' t hl' hs)
  · rintro t ⟨b0, l0, h0⟩ b l r hb
    obtain ⟨l', hl'⟩ := replaced_term hR.term hv.body_ne h0
    rw [replaced_all] at hb
    obtain ⟨l2, r2, h1, h2, h3⟩ := filter_split _ l hb
    have := hv.term_last t ⟨b0, l', hl'⟩ b l2 r2 h1
    subst this
    simpa using h3.symm

end Verif.SsaExec
