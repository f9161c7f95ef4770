import Verif.Loader.Segs

/-! # Emission keeps the lines and scopes of the instructions -/
set_option linter.unusedSimpArgs false
set_option linter.unusedVariables false
namespace Verif.Loader
open Verif.StringLit (Word)
open Spec (Rank Info Key Eff key norm carriesDebug scopeOf)

/-! ## Reading the output -/

/-- `Spec.info` together with what is in effect at the end. -/
def run : Eff → List PInst → List Info × Eff
  | e, [] => ([], e)
  | e, x :: xs =>
    if x.isLine then run { e with line := some (key x) } xs
    else if x.isNoLine then run { e with line := .none } xs
    else if x.isScope then run { e with scope := scopeOf x } xs
    else if x.isNoScope then run { e with scope := noScope } xs
    else
      let e := if x.op = .merge then { e with scope := noScope } else e
      let r := run (if x.op = .terminator then Eff.none else e) xs
      (⟨x, e.line, e.scope⟩ :: r.1, r.2)

theorem info_eq_run : ∀ (xs : List PInst) (e : Eff), Spec.info e xs = (run e xs).1
  | [], e => rfl
  | x :: xs, e => by
    unfold Spec.info run
    split
    · exact info_eq_run xs _
    · split
      · exact info_eq_run xs _
      · split
        · exact info_eq_run xs _
        · split
          · exact info_eq_run xs _
          · simp only [info_eq_run xs]

theorem run_append : ∀ (a b : List PInst) (e : Eff),
    run e (a ++ b) = ((run e a).1 ++ (run (run e a).2 b).1, (run (run e a).2 b).2)
  | [], b, e => rfl
  | x :: a, b, e => by
    simp only [List.cons_append, run]
    split
    · exact run_append a b _
    · split
      · exact run_append a b _
      · split
        · exact run_append a b _
        · split
          · exact run_append a b _
          · simp only [run_append a b]; rfl

theorem isLine_not_noLine {x : PInst} (h : x.isLine) : x.isNoLine = false := by
  unfold PInst.isLine at h
  unfold PInst.isNoLine
  split at h <;> simp_all

theorem run_line {x : PInst} (h : x.isLineInst) (o : Eff) : run o [x] = ([], ⟨lineKey x, o.scope⟩) := by
  unfold PInst.isLineInst at h
  unfold lineKey
  cases hl : x.isLine with
  | true => simp [run, hl, isLine_not_noLine hl]
  | false =>
    have hn : x.isNoLine = true := by simpa [hl] using h
    simp [run, hl, hn]

/-- The state after an instruction that carries no line or scope information. -/
def nextEff (o : Eff) (x : PInst) : Eff :=
  if x.op = .terminator then Eff.none else if x.op = .merge then ⟨o.line, noScope⟩ else o

theorem run_plain {x : PInst} (h : carriesDebug x = false) (o : Eff) :
    run o [x] = ([⟨x, o.line, if x.op = .merge then noScope else o.scope⟩], nextEff o x) := by
  simp only [carriesDebug, PInst.isLineInst, Bool.or_eq_false_iff] at h
  obtain ⟨⟨⟨h1, h2⟩, h3⟩, h4⟩ := h
  simp only [run, h1, h2, h3, h4, Bool.false_eq_true, if_false, nextEff]
  by_cases hm : x.op = .merge <;> by_cases ht : x.op = .terminator <;> simp_all

/-- The instruction scopes are modelled on belongs to a debug info set. -/
def DbgOk (c : Cfg) : Prop := ∃ f set k ws, c.dbg = some ⟨.ext f set k, ws⟩ ∧ set.isDebug = true

theorem run_scopeInst {f set k ws} (h : ExtSet.isDebug set = true) (sc : Scope) (id : Word) (o : Eff) :
    run o [scopeInst ⟨.ext f set k, ws⟩ sc id] = ([], ⟨o.line, norm sc⟩) := by
  unfold scopeInst
  simp only
  split
  · rename_i h0
    simp [run, PInst.isLine, PInst.isNoLine, PInst.isScope, PInst.isNoScope, h, norm, h0]
  · rename_i h0
    split
    · rename_i h1
      simp [run, PInst.isLine, PInst.isNoLine, PInst.isScope, PInst.isNoScope, h, scopeOf, norm, h0]
      cases sc
      simp at h1
      rw [h1]
    · simp [run, PInst.isLine, PInst.isNoLine, PInst.isScope, PInst.isNoScope, h, scopeOf, norm, h0]

theorem run_noLineInst (c : Cfg) (b : Word) (o : Eff) :
    run o [(noLineInst c b).1] = ([], ⟨none, o.scope⟩) := by
  unfold noLineInst
  split <;> simp [run, PInst.isLine, PInst.isNoLine]

/-! ## The stages of `write_inst` -/

theorem scopeStage_spec {c : Cfg} {e : E} {it : Item} (hd : DbgOk c ∨ (e.scope = noScope ∧ it.scope = noScope))
    (hm : e.merge = false) (o : Eff) :
    ∃ out b, scopeStage c e it = some (out, { e with scope := it.scope, bound := b }) ∧
      run o out = ([], ⟨o.line, if it.scope ≠ e.scope ∧ (e.region = false ∨ c.cl100 = true) then norm it.scope else o.scope⟩) := by
  unfold scopeStage
  by_cases h : it.scope = e.scope
  · simp only [h, ne_eq, not_true_eq_false, false_and, if_false]
    exact ⟨[], e.bound, rfl, rfl⟩
  · simp only [ne_eq, h, not_false_iff, hm, and_self, if_true, true_and]
    split
    · obtain ⟨f, set, k, ws, hc, hs⟩ : DbgOk c := by
        rcases hd with hd | ⟨h1, h2⟩
        · exact hd
        · exact absurd (h2.trans h1.symm) h
      rw [hc]
      exact ⟨_, _, rfl, run_scopeInst hs _ _ _⟩
    · exact ⟨[], e.bound, rfl, rfl⟩

/-- The positions the module's line instructions give are told apart by `write_inst`. -/
def NoClash (P : Key → Prop) : Prop := ∀ a b, P a → P b → a.2.2 <+: b.2.2 → a = b

theorem sameWords_spec : ∀ (a b : List Word),
    (sameWords a b = some true ∧ a <+: b) ∨ sameWords a b = some false ∨ (sameWords a b = none ∧ b <+: a ∧ a ≠ b)
  | [], b => .inl ⟨rfl, List.nil_prefix⟩
  | a :: as, [] => .inr (.inr ⟨rfl, List.nil_prefix, by simp⟩)
  | a :: as, b :: bs => by
    unfold sameWords
    split
    · rename_i h
      subst h
      rcases sameWords_spec as bs with ⟨h1, h2⟩ | h1 | ⟨h1, h2, h3⟩
      · exact .inl ⟨h1, by simpa using h2⟩
      · exact .inr (.inl h1)
      · exact .inr (.inr ⟨h1, by simpa using h2, by simpa using h3⟩)
    · exact .inr (.inl rfl)

theorem sameWords_key {P : Key → Prop} (hP : NoClash P) {x y : PInst} (hx : P (key x)) (hy : P (key y)) :
    (sameWords x.inWords y.inWords = some true ∧ key x = key y) ∨ sameWords x.inWords y.inWords = some false := by
  rcases sameWords_spec x.inWords y.inWords with ⟨h1, h2⟩ | h1 | ⟨h1, h2, h3⟩
  · exact .inl ⟨h1, hP _ _ hx hy h2⟩
  · exact .inr h1
  · have := hP _ _ hy hx h2
    exact absurd (congrArg (·.2.2) this).symm h3

/-- The variables of `write_inst` and the reader of the output agree on the line. -/
structure LineRel (P : Key → Prop) (e : E) (o : Eff) : Prop where
  line : o.line = e.line.map key
  isLine : ∀ l, e.line = some l → l.isLine = true ∧ P (key l)

theorem notLine_annotation {x : PInst} (h : x.isLineInst) : x.op ≠ .annotation true := by
  intro ho
  simp [PInst.isLineInst, PInst.isLine, PInst.isNoLine, ho] at h

theorem isLineInst_ops {x : PInst} (h : x.isLineInst) :
    x.op ≠ .terminator ∧ x.op ≠ .merge ∧ x.op ≠ .nop ∧ x.op ≠ .annotation true ∧ x.op ≠ .label := by
  refine ⟨?_, ?_, ?_, ?_, ?_⟩ <;>
    (intro ho; simp [PInst.isLineInst, PInst.isLine, PInst.isNoLine, ho] at h)

/-- An attached line instruction outside the gap between merge and branch. -/
theorem write_line {P : Key → Prop} (hP : NoClash P) {c : Cfg} {e : E} {l : LineInst} {o : Eff}
    (hl : l.inst.isLineInst) (hPl : l.inst.isLine → P (key l.inst)) (hr : LineRel P e o) (hm : e.merge = false)
    (hd : DbgOk c ∨ (e.scope = noScope ∧ l.scope = noScope)) :
    ∃ out e' o', writeInst c e (.line l) = some (out, e') ∧ run o out = ([], o') ∧ LineRel P e' o' ∧
      o'.line = lineKey l.inst ∧ e'.merge = false ∧ e'.seen = e.seen ∧
      ((e'.scope = e.scope ∧ o'.scope = o.scope ∧ e'.region = e.region) ∨
       (e'.scope = l.scope ∧ e'.region = newRegion e.region l.inst ∧
        o'.scope = if l.scope ≠ e.scope ∧ (newRegion e.region l.inst = false ∨ c.cl100 = true) then norm l.scope else o.scope)) := by
  obtain ⟨n1, n2, n3, n4, n5⟩ := isLineInst_ops hl
  have hdup : isDup c e (Item.line l).x = false := by simp [isDup, Item.x, n4]
  have hseen : addSeen c e (Item.line l).x = e := by simp [addSeen, Item.x, n4]
  have hskip : (e.merge && (Item.line l).x.isLineInst) = false := by simp [hm]
  unfold writeInst
  simp only [hdup, hseen, hskip, Bool.false_eq_true, if_false]
  -- the line is written
  have wr : lineStage c e (.line l) = some (some ([], e)) →
      ∃ out e' o', (match lineStage c e (.line l) with
        | none => none
        | some none => some ([], e)
        | some (some r) =>
          match writeStage c { r.2 with region := newRegion r.2.region (Item.line l).x } (.line l) with
          | none => none
          | some w => some (r.1 ++ w.1, finishStage w.2 (Item.line l).x)) = some (out, e') ∧ run o out = ([], o') ∧
        LineRel P e' o' ∧ o'.line = lineKey l.inst ∧ e'.merge = false ∧ e'.seen = e.seen ∧
        ((e'.scope = e.scope ∧ o'.scope = o.scope ∧ e'.region = e.region) ∨
         (e'.scope = l.scope ∧ e'.region = newRegion e.region l.inst ∧
          o'.scope = if l.scope ≠ e.scope ∧ (newRegion e.region l.inst = false ∨ c.cl100 = true) then norm l.scope else o.scope)) := by
    intro hls
    obtain ⟨out, b, h1, h2⟩ := scopeStage_spec (c := c) (e := { e with region := newRegion e.region l.inst })
      (it := .line l) hd hm o
    have hw : writeStage c { e with region := newRegion e.region l.inst } (.line l) =
        some (out ++ [l.inst], { e with region := newRegion e.region l.inst, scope := l.scope, bound := b }) := by
      unfold writeStage
      simp only [Item.x, n3, and_false, if_false]
      rw [h1]
      rfl
    rw [hls]
    simp only [Item.x, hw, List.nil_append]
    have hrun := run_append out [l.inst] o
    rw [h2] at hrun
    simp only [List.nil_append] at hrun
    rw [run_line hl] at hrun
    refine ⟨_, _, _, rfl, hrun, ?_, rfl, ?_, ?_, .inr ⟨?_, ?_, rfl⟩⟩
    · constructor
      · simp only [finishStage, n1, n2, false_or, if_false]
        unfold lineKey
        cases hnl : l.inst.isNoLine with
        | true => simp
        | false =>
          have : l.inst.isLine = true := by simpa [PInst.isLineInst, hnl] using hl
          simp [this]
      · intro l' hl'
        simp only [finishStage, n1, n2, false_or, if_false] at hl'
        cases hnl : l.inst.isNoLine with
        | true => simp [hnl] at hl'
        | false =>
          have hil : l.inst.isLine = true := by simpa [PInst.isLineInst, hnl] using hl
          simp [hnl, hil] at hl'
          subst hl'
          exact ⟨hil, hPl hil⟩
    · simp only [finishStage, n1, n2, false_or, if_false]
      split
      · rfl
      · split <;> rfl
    · simp only [finishStage, n1, n2, false_or, if_false]
      split
      · rfl
      · split <;> rfl
    · simp only [finishStage, n1, n2, false_or, if_false]
      split
      · rfl
      · split <;> rfl
    · simp only [finishStage, n1, n2, false_or, if_false]
      split
      · rfl
      · split <;> rfl
  cases he : e.line with
  | none => exact wr (by unfold lineStage; rw [he])
  | some p =>
    have hp := hr.isLine p he
    cases hil : l.inst.isLine with
    | true =>
      rcases sameWords_key hP hp.2 (hPl hil) with ⟨h1, h2⟩ | h1
      · have hls : lineStage c e (.line l) = some none := by
          unfold lineStage; rw [he]; simp [Item.x, hil, h1]
        rw [hls]
        refine ⟨_, _, _, rfl, rfl, hr, ?_, hm, rfl, .inl ⟨rfl, rfl, rfl⟩⟩
        rw [hr.line, he]
        simp [lineKey, isLine_not_noLine hil, h2]
      · exact wr (by unfold lineStage; rw [he]; simp [Item.x, hil, h1])
    | false =>
      have hnl : l.inst.isNoLine = true := by simpa [PInst.isLineInst, hil] using hl
      exact wr (by unfold lineStage; rw [he]; simp [Item.x, hil, hnl])

theorem writeAll_append (c : Cfg) : ∀ (a b : List Item) (e e' : E) (out : List PInst),
    writeAll c e a = some (out, e') →
    writeAll c e (a ++ b) = (writeAll c e' b).map fun r => (out ++ r.1, r.2)
  | [], b, e, e', out, h => by
    cases h
    cases h : writeAll c e b with
    | none => simp [h]
    | some r => simp [h]
  | it :: a, b, e, e', out, h => by
    simp only [writeAll, List.cons_append] at h ⊢
    cases h1 : writeInst c e it with
    | none => rw [h1] at h; cases h
    | some r =>
      rw [h1] at h
      simp only at h ⊢
      cases h2 : writeAll c r.2 a with
      | none => rw [h2] at h; cases h
      | some t =>
        rw [h2] at h
        cases h
        rw [writeAll_append c a b r.2 t.2 t.1 h2]
        cases writeAll c t.2 b with
        | none => rfl
        | some u => simp

/-! ## The instruction itself -/

/-- Is the instruction written at all? -/
def keeps (c : Cfg) (seen : List (List Word)) (x : PInst) : Bool :=
  !(c.filter && decide (x.op = .annotation true) && seen.contains x.words) && !(c.skipNop && decide (x.op = .nop))

def seen' (c : Cfg) (seen : List (List Word)) (x : PInst) : List (List Word) :=
  if c.filter ∧ x.op = .annotation true ∧ ¬ seen.contains x.words then x.words :: seen else seen

/-- An instruction outside the gap between merge and branch, after its line instructions. -/
theorem write_plain {P : Key → Prop} {c : Cfg} {e : E} {i : Instr} {o : Eff}
    (hi : carriesDebug i.inst = false) (hr : LineRel P e o) (hm : e.merge = false)
    (hd : DbgOk c ∨ (e.scope = noScope ∧ i.scope = noScope)) :
    ∃ out e' o', writeInst c e (.inst i) = some (out, e') ∧ e'.seen = seen' c e.seen i.inst ∧
      (keeps c e.seen i.inst = false → run o out = ([], o') ∧ LineRel P e' o' ∧ e'.merge = false ∧ e'.scope = e.scope ∧
        o'.scope = o.scope ∧ (e'.region = false ∨ e'.region = e.region)) ∧
      (keeps c e.seen i.inst = true → ∃ sc, (sc = if i.scope ≠ e.scope ∧ (newRegion e.region i.inst = false ∨ c.cl100 = true)
            then norm i.scope else o.scope) ∧
          run o out = ([⟨i.inst, if i.lines = [] then none else o.line, if i.inst.op = .merge then noScope else sc⟩], o') ∧
          o' = nextEff ⟨if i.lines = [] then none else o.line, sc⟩ i.inst ∧
          (i.inst.op ≠ .merge → LineRel P e' o') ∧ (i.inst.op = .merge → e'.line = none) ∧
          e'.merge = decide (i.inst.op = .merge) ∧
          e'.scope = i.scope ∧ e'.region = newRegion e.region i.inst) := by
  have hnl : i.inst.isLineInst = false := by
    simp only [carriesDebug, Bool.or_eq_false_iff] at hi; exact hi.1.1
  have hl1 : i.inst.isLine = false := by simp only [PInst.isLineInst, Bool.or_eq_false_iff] at hnl; exact hnl.1
  have hl2 : i.inst.isNoLine = false := by simp only [PInst.isLineInst, Bool.or_eq_false_iff] at hnl; exact hnl.2
  unfold writeInst
  cases hdup : isDup c e (Item.inst i).x with
  | true =>
    have hk : keeps c e.seen i.inst = false := by
      simp only [isDup, Item.x] at hdup
      unfold keeps
      rw [Bool.and_eq_false_iff, Bool.not_eq_false']
      exact .inl hdup
    refine ⟨[], e, o, rfl, ?_, fun _ => ⟨rfl, hr, hm, rfl, rfl, .inr rfl⟩, (fun h => by rw [hk] at h; cases h)⟩
    simp only [isDup, Item.x, Bool.and_eq_true] at hdup
    unfold seen'
    rw [if_neg]
    intro h
    exact h.2.2 hdup.2
  | false =>
    have hseen : (addSeen c e (Item.inst i).x).seen = seen' c e.seen i.inst := by
      unfold addSeen seen' Item.x
      by_cases h : c.filter = true ∧ i.inst.op = .annotation true
      · have : ¬ e.seen.contains i.inst.words = true := by
          intro hc
          have : isDup c e i.inst = true := by unfold isDup; rw [hc]; simp [h.1, h.2]
          rw [show (Item.inst i).x = i.inst from rfl] at hdup
          rw [hdup] at this; cases this
        rw [if_pos h, if_pos ⟨h.1, h.2, this⟩]
      · rw [if_neg h, if_neg (fun hh => h ⟨hh.1, hh.2.1⟩)]
    obtain ⟨e1, he1⟩ : ∃ e1, e1 = addSeen c e (Item.inst i).x := ⟨_, rfl⟩
    have g1 : e1.line = e.line := by subst he1; unfold addSeen; split <;> rfl
    have g2 : e1.merge = false := by subst he1; unfold addSeen; split <;> exact hm
    have g3 : e1.scope = e.scope := by subst he1; unfold addSeen; split <;> rfl
    have g4 : e1.region = e.region := by subst he1; unfold addSeen; split <;> rfl
    rw [← he1] at hseen
    simp only [Bool.false_eq_true, if_false, ← he1, g2, Bool.false_and]
    -- the line stage
    obtain ⟨o1, e2, hls, hrun1, k1, k2, k3, k4, k5⟩ : ∃ o1 e2, lineStage c e1 (.inst i) = some (some (o1, e2)) ∧
        run o o1 = ([], ⟨if i.lines = [] then none else o.line, o.scope⟩) ∧
        LineRel P e2 ⟨if i.lines = [] then none else o.line, o.scope⟩ ∧ e2.merge = false ∧ e2.scope = e.scope ∧
        e2.region = e.region ∧ e2.seen = e1.seen := by
      cases he : e.line with
      | none =>
        have ho : o.line = none := by rw [hr.line, he]; rfl
        have hoe : (⟨if i.lines = [] then none else o.line, o.scope⟩ : Eff) = o := by
          cases o; simp only at ho; subst ho; simp
        rw [hoe]
        refine ⟨[], e1, by unfold lineStage; rw [g1, he], rfl, ⟨?_, ?_⟩, g2, g3, g4, rfl⟩
        · rw [g1]; exact hr.line
        · rw [g1]; exact hr.isLine
      | some l =>
        by_cases hnil : i.lines = []
        · refine ⟨[(noLineInst c e1.bound).1], { e1 with line := none, bound := (noLineInst c e1.bound).2 },
            by unfold lineStage; rw [g1, he]; simp [Item.x, hl1, hl2, Item.noLines, hnil],
            by rw [run_noLineInst]; simp [hnil], ⟨by simp [hnil], by simp⟩, g2, g3, g4, rfl⟩
        · have hoe : (⟨if i.lines = [] then none else o.line, o.scope⟩ : Eff) = o := by
            cases o; simp [hnil]
          rw [hoe]
          refine ⟨[], e1, by unfold lineStage; rw [g1, he]; simp [Item.x, hl1, hl2, Item.noLines, hnil], rfl, ⟨?_, ?_⟩, g2, g3, g4, rfl⟩
          · rw [g1]; exact hr.line
          · rw [g1]; exact hr.isLine
    rw [hls]
    simp only [Item.x, k4]
    by_cases hnop : c.skipNop = true ∧ i.inst.op = .nop
    · have hk : keeps c e.seen i.inst = false := by simp [keeps, hnop]
      have hw : writeStage c { e2 with region := newRegion e.region i.inst } (.inst i) =
          some ([], { e2 with region := newRegion e.region i.inst }) := by
        unfold writeStage; simp [Item.x, hnop]
      rw [hw]
      have hfin : finishStage { e2 with region := newRegion e.region i.inst } i.inst =
          { e2 with region := newRegion e.region i.inst, merge := false } := by
        simp [finishStage, hnop.2, hl1, hl2]
      simp only [List.append_nil, hfin]
      refine ⟨o1, _, _, rfl, by simp only; rw [k5, hseen], fun _ => ⟨hrun1, ⟨k1.line, k1.isLine⟩, rfl, k3, rfl, ?_⟩,
        (fun h => by rw [hk] at h; cases h)⟩
      simp only [newRegion, hnop.2]
      exact .inl trivial
    · have hk : keeps c e.seen i.inst = true := by
        have h1 : (c.filter && decide (i.inst.op = .annotation true) && e.seen.contains i.inst.words) = false := hdup
        simp only [keeps, h1, Bool.not_false, Bool.true_and, Bool.not_eq_true', Bool.and_eq_false_iff]
        by_cases hs : c.skipNop = true
        · right; simp only [hs, true_and] at hnop; simp [hnop]
        · left; simpa using hs
      obtain ⟨out, b, h1, h2⟩ := scopeStage_spec (c := c) (e := { e2 with region := newRegion e.region i.inst })
        (it := .inst i) (by
          rcases hd with hd | hd
          · exact .inl hd
          · exact .inr ⟨by simp only; rw [k3]; exact hd.1, hd.2⟩) k2 ⟨if i.lines = [] then none else o.line, o.scope⟩
      have hw : writeStage c { e2 with region := newRegion e.region i.inst } (.inst i) =
          some (out ++ [i.inst], { e2 with region := newRegion e.region i.inst, scope := i.scope, bound := b }) := by
        unfold writeStage
        rw [if_neg (by simpa [Item.x] using hnop), h1]
        rfl
      rw [hw]
      simp only
      refine ⟨_, _, _, rfl, ?_, (fun h => by rw [hk] at h; cases h), fun _ => ⟨_, rfl, ?_, rfl, ?_, ?_, ?_, ?_, ?_⟩⟩
      · unfold finishStage
        split
        · simp only; rw [k5, hseen]
        · split
          · simp only; rw [k5, hseen]
          · split
            · simp only; rw [k5, hseen]
            · simp only; rw [k5, hseen]
      · rw [run_append, hrun1, List.nil_append, run_append, h2]
        simp only [List.nil_append]
        rw [run_plain hi]
        simp only [Item.scope, k3]
      · intro hmg
        unfold finishStage
        by_cases ht : i.inst.op = .terminator
        · simp only [ht, true_or, if_true, nextEff]
          exact ⟨rfl, by simp⟩
        · simp only [ht, hl2, Bool.false_eq_true, or_self, hmg, hl1, if_false, nextEff]
          exact ⟨k1.line, k1.isLine⟩
      · intro hmg
        simp [finishStage, hmg, hl2]
      · unfold finishStage
        by_cases ht : i.inst.op = .terminator
        · simp [ht]
        · by_cases hmg : i.inst.op = .merge
          · simp [hmg, hl2]
          · simp [ht, hmg, hl1, hl2]
      · unfold finishStage
        split
        · rfl
        · split
          · rfl
          · split <;> rfl
      · unfold finishStage
        split
        · rfl
        · split
          · rfl
          · split <;> rfl

end Verif.Loader
