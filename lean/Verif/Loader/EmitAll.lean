import Verif.Loader.Emit

/-! # Emission, sequences of instructions and blocks -/
set_option linter.unusedSimpArgs false
set_option linter.unusedVariables false
namespace Verif.Loader
open Verif.StringLit (Word)
open Spec (Rank Info Key Eff key norm carriesDebug scopeOf)

variable {P : Key → Prop} {c : Cfg}

theorem bind_some {c : Cfg} {a b : List Item} {e e1 e2 : E} {o1 o2 : List PInst}
    (h1 : writeAll c e a = some (o1, e1)) (h2 : writeAll c e1 b = some (o2, e2)) :
    writeAll c e (a ++ b) = some (o1 ++ o2, e2) := by
  rw [writeAll_append c a b e e1 o1 h1, h2]; rfl

theorem writeAll_one {c : Cfg} {e e' : E} {it : Item} {out : List PInst} (h : writeInst c e it = some (out, e')) :
    writeAll c e [it] = some (out, e') := by
  simp [writeAll, h]

theorem writeAll_cons {c : Cfg} {e e1 e2 : E} {it : Item} {its : List Item} {o1 o2 : List PInst}
    (h : writeInst c e it = some (o1, e1)) (h2 : writeAll c e1 its = some (o2, e2)) :
    writeAll c e (it :: its) = some (o1 ++ o2, e2) := by
  simp [writeAll, h, h2]

/-- What is required of attached line instructions. -/
def LinesOk (P : Key → Prop) (i : Instr) : Prop :=
  ∀ l ∈ i.lines, l.inst.isLineInst = true ∧ (l.inst.isLine = true → P (key l.inst))

def lastKey (o : Option Key) (ls : List LineInst) : Option Key :=
  match ls.getLast? with
  | some l => lineKey l.inst
  | none => o

theorem line_eq_lastKey (i : Instr) (o : Option Key) :
    i.line = if i.lines = [] then none else lastKey o i.lines := by
  unfold Instr.line lastKey
  cases h : i.lines.getLast? with
  | none => rw [List.getLast?_eq_none_iff] at h; simp [h]
  | some l =>
    have : i.lines ≠ [] := by intro hh; rw [hh] at h; cases h
    simp [this]

theorem lastKey_cons (o : Option Key) (l : LineInst) (ls : List LineInst) :
    lastKey o (l :: ls) = lastKey (lineKey l.inst) ls := by
  unfold lastKey
  cases ls with
  | nil => rfl
  | cons a ls => rw [List.getLast?_cons_cons]; cases h : (a :: ls).getLast? with
    | none => simp at h
    | some b => rfl

/-! ## Outside blocks -/

structure OutInv (P : Key → Prop) (c : Cfg) (e : E) (o : Eff) : Prop where
  line : LineRel P e o
  merge : e.merge = false
  scope : o.scope = noScope
  dbg : DbgOk c ∨ e.scope = noScope

theorem write_lines_out (hP : NoClash P) : ∀ (ls : List LineInst) (e : E) (o : Eff),
    (∀ l ∈ ls, l.inst.isLineInst = true ∧ (l.inst.isLine = true → P (key l.inst)) ∧ l.scope = noScope) →
    OutInv P c e o →
    ∃ out e' o', writeAll c e (ls.map .line) = some (out, e') ∧ run o out = ([], o') ∧ OutInv P c e' o' ∧
      o'.line = lastKey o.line ls ∧ e'.seen = e.seen
  | [], e, o, _, h => ⟨[], e, o, rfl, rfl, h, rfl, rfl⟩
  | l :: ls, e, o, hl, h => by
    obtain ⟨h1, h2, h3⟩ := hl l (by simp)
    obtain ⟨out, e', o', w1, w2, w3, w4, w5, w6, w7⟩ := write_line (c := c) hP (l := l) h1 h2 h.line h.merge
      (by rcases h.dbg with h | h; exact .inl h; exact .inr ⟨h, h3⟩)
    have hi : OutInv P c e' o' := by
      refine ⟨w3, w5, ?_, ?_⟩
      · rcases w7 with ⟨_, w, _⟩ | ⟨_, _, w⟩
        · rw [w]; exact h.scope
        · rw [w]; split
          · rw [h3]; rfl
          · exact h.scope
      · rcases h.dbg with h | h
        · exact .inl h
        · right
          rcases w7 with ⟨w, _, _⟩ | ⟨w, _, _⟩
          · rw [w]; exact h
          · rw [w]; exact h3
    obtain ⟨out2, e2, o2, v1, v2, v3, v4, v5⟩ := write_lines_out hP ls e' o' (fun l hl' => hl l (by simp [hl'])) hi
    refine ⟨out ++ out2, e2, o2, writeAll_cons w1 v1, ?_, v3, ?_, by rw [v5, w6]⟩
    · rw [run_append, w2]; simp [v2]
    · rw [v4, lastKey_cons, w4]

/-- An instruction outside blocks, or the label of a block. -/
structure OutOk (P : Key → Prop) (i : Instr) : Prop where
  plain : carriesDebug i.inst = false
  lines : LinesOk P i
  scope : i.scope = noScope
  lineScopes : ∀ l ∈ i.lines, l.scope = noScope
  notMerge : i.inst.op ≠ .merge
  notTerm : i.inst.op ≠ .terminator

theorem write_out (hP : NoClash P) {i : Instr} (hi : OutOk P i) {e : E} {o : Eff} (h : OutInv P c e o) :
    ∃ out e' o', writeAll c e i.items = some (out, e') ∧
      run o out = (if keeps c e.seen i.inst then [infoOf i] else [], o') ∧ OutInv P c e' o' ∧
      e'.seen = seen' c e.seen i.inst ∧
      (keeps c e.seen i.inst = true → e'.scope = noScope ∧ e'.region = newRegion e'.region i.inst) := by
  obtain ⟨out1, e1, o1, w1, w2, w3, w4, w5⟩ := write_lines_out hP i.lines e o
    (fun l hl => ⟨(hi.lines l hl).1, (hi.lines l hl).2, hi.lineScopes l hl⟩) h
  obtain ⟨out2, e2, o2, v1, v2, v3, v4⟩ := write_plain (c := c) (P := P) hi.plain w3.line w3.merge
    (by rcases w3.dbg with h | h; exact .inl h; exact .inr ⟨h, hi.scope⟩)
  rw [w5] at v2 v3 v4
  refine ⟨out1 ++ out2, e2, o2, bind_some w1 (writeAll_one v1), ?_, ?_, v2, ?_⟩
  · rw [run_append, w2]
    cases hk : keeps c e.seen i.inst with
    | false => simp [(v3 hk).1]
    | true =>
      obtain ⟨sc, hsc, hrun, _⟩ := v4 hk
      rw [hrun]
      have : sc = noScope := by
        rw [hsc]; split
        · rw [hi.scope]; rfl
        · exact w3.scope
      simp [hi.notMerge, infoOf, this, hi.scope, line_eq_lastKey i o.line, w4]
  · cases hk : keeps c e.seen i.inst with
    | false =>
      obtain ⟨_, a1, a2, a3, a4, _⟩ := v3 hk
      exact ⟨a1, a2, by rw [a4]; exact w3.scope, by rw [a3]; exact w3.dbg⟩
    | true =>
      obtain ⟨sc, hsc, hrun, ho, hl, _, hm, hs, hr⟩ := v4 hk
      have : sc = noScope := by
        rw [hsc]; split
        · rw [hi.scope]; rfl
        · exact w3.scope
      refine ⟨hl hi.notMerge, by simp [hm, hi.notMerge], ?_, .inr (by rw [hs]; exact hi.scope)⟩
      rw [ho]; simp [nextEff, hi.notMerge, hi.notTerm, this]
  · intro hk
    obtain ⟨sc, hsc, hrun, ho, hl, _, hm, hs, hr⟩ := v4 hk
    refine ⟨by rw [hs]; exact hi.scope, ?_⟩
    rw [hr]
    unfold newRegion
    split <;> rfl

/-! ## Inside blocks -/

structure InInv (P : Key → Prop) (c : Cfg) (rg : Bool) (e : E) (o : Eff) : Prop where
  line : LineRel P e o
  merge : e.merge = false
  scope : o.scope = norm e.scope
  region : e.region = true → rg = true ∧ (c.cl100 = false → e.scope = noScope)
  dbg : DbgOk c ∨ e.scope = noScope

theorem newRegion_line {r : Bool} {x : PInst} (h : newRegion r x = true) (hl : x.isLineInst = true) :
    r = true ∧ x.isOpLineInst = true := by
  have := isLineInst_ops hl
  unfold newRegion at h
  split at h
  · simp_all
  · rename_i ho; simp [PInst.isLineInst, PInst.isLine, PInst.isNoLine, ho] at hl
  · rename_i ho; simp [PInst.isLineInst, PInst.isLine, PInst.isNoLine, ho] at hl
  · rename_i ho; exact ⟨h, by simp [PInst.isOpLineInst, ho]⟩
  · rename_i ho; exact ⟨h, by simp [PInst.isOpLineInst, ho]⟩
  · cases h

theorem write_lines_in (hP : NoClash P) {rg : Bool} : ∀ (ls : List LineInst) (e : E) (o : Eff),
    (∀ l ∈ ls, l.inst.isLineInst = true ∧ (l.inst.isLine = true → P (key l.inst)) ∧ (DbgOk c ∨ l.scope = noScope) ∧
      (rg = true → c.cl100 = false → l.inst.isOpLineInst = true → l.scope = noScope)) →
    InInv P c rg e o →
    ∃ out e' o', writeAll c e (ls.map .line) = some (out, e') ∧ run o out = ([], o') ∧ InInv P c rg e' o' ∧
      o'.line = lastKey o.line ls ∧ e'.seen = e.seen
  | [], e, o, _, h => ⟨[], e, o, rfl, rfl, h, rfl, rfl⟩
  | l :: ls, e, o, hl, h => by
    obtain ⟨h1, h2, h3, h4⟩ := hl l (by simp)
    by_cases hd : DbgOk c ∨ (e.scope = noScope ∧ l.scope = noScope)
    · obtain ⟨out, e', o', w1, w2, w3, w4, w5, w6, w7⟩ := write_line (c := c) hP (l := l) h1 h2 h.line h.merge hd
      have hi : InInv P c rg e' o' := by
        refine ⟨w3, w5, ?_, ?_, ?_⟩
        · rcases w7 with ⟨w, w', _⟩ | ⟨w, _, w'⟩
          · rw [w, w']; exact h.scope
          · rw [w, w']
            by_cases he : l.scope = e.scope
            · simp [he, h.scope]
            · by_cases hr : newRegion e.region l.inst = false ∨ c.cl100 = true
              · simp [he, hr]
              · exfalso
                have hr' : newRegion e.region l.inst = true ∧ c.cl100 = false := by simpa using hr
                obtain ⟨r1, r2⟩ := newRegion_line hr'.1 h1
                obtain ⟨q1, q2⟩ := h.region r1
                exact he ((h4 q1 hr'.2 r2).trans (q2 hr'.2).symm)
        · intro hr
          rcases w7 with ⟨w, _, w'⟩ | ⟨w, w', _⟩
          · rw [w'] at hr; rw [w]; exact h.region hr
          · rw [w'] at hr
            obtain ⟨r1, r2⟩ := newRegion_line hr h1
            obtain ⟨q1, q2⟩ := h.region r1
            refine ⟨q1, fun hc => ?_⟩
            rw [w]; exact h4 q1 hc r2
        · rcases hd with hd | hd
          · exact .inl hd
          · right
            rcases w7 with ⟨w, _, _⟩ | ⟨w, _, _⟩
            · rw [w]; exact hd.1
            · rw [w]; exact hd.2
      obtain ⟨out2, e2, o2, v1, v2, v3, v4, v5⟩ := write_lines_in hP ls e' o' (fun l hl' => hl l (by simp [hl'])) hi
      refine ⟨out ++ out2, e2, o2, writeAll_cons w1 v1, ?_, v3, ?_, by rw [v5, w6]⟩
      · rw [run_append, w2]; simp [v2]
      · rw [v4, lastKey_cons, w4]
    · exfalso
      apply hd
      rcases h.dbg with h | h
      · exact .inl h
      · rcases h3 with h3 | h3
        · exact .inl h3
        · exact .inr ⟨h, h3⟩

/-- Does the instruction leave open that a block begins with phis and variables only? -/
def opening (x : PInst) : Bool :=
  match x.op with
  | .variable => true
  | .phi => true
  | .annotation true => true
  | _ => false

/-- An instruction of a block other than the label; `rg`: only phis and variables before it. -/
structure InOk (P : Key → Prop) (c : Cfg) (rg : Bool) (i : Instr) : Prop where
  plain : carriesDebug i.inst = false
  lines : LinesOk P i
  normal : norm i.scope = i.scope
  dbg : DbgOk c ∨ (i.scope = noScope ∧ ∀ l ∈ i.lines, l.scope = noScope)
  merge : i.inst.op = .merge → i.scope = noScope
  notLabel : i.inst.op ≠ .label
  opens : rg = true → c.cl100 = false →
    (∀ l ∈ i.lines, l.inst.isOpLineInst = true → l.scope = noScope) ∧
    (i.inst.op = .variable ∨ i.inst.op = .phi → i.scope = noScope)

/-- The instructions of a block after the label: a merge instruction comes directly before the
terminator, which has the same line and no scope. -/
def BodyOk (P : Key → Prop) (c : Cfg) : Bool → Option (Option Key) → List Instr → Prop
  | _, _, [] => False
  | rg, am, i :: is =>
    InOk P c rg i ∧ (∀ k, am = some k → i.inst.op = .terminator ∧ i.line = k ∧ i.scope = noScope) ∧
    if i.inst.op = .terminator then is = []
    else BodyOk P c (rg && opening i.inst) (if i.inst.op = .merge then some i.line else none) is

/-- What is written of a sequence, and what has been seen after it. -/
def writtenI (c : Cfg) : List (List Word) → List Instr → List Info
  | _, [] => []
  | seen, i :: is => (if keeps c seen i.inst then [infoOf i] else []) ++ writtenI c (seen' c seen i.inst) is

def seenAll (c : Cfg) : List (List Word) → List Instr → List (List Word)
  | seen, [] => seen
  | seen, i :: is => seenAll c (seen' c seen i.inst) is

theorem keeps_of_ne {seen : List (List Word)} {x : PInst} (h1 : x.op ≠ .annotation true) (h2 : x.op ≠ .nop) :
    keeps c seen x = true ∧ seen' c seen x = seen := by
  simp [keeps, seen', h1, h2]

theorem newRegion_in {r : Bool} {x : PInst} (h : newRegion r x = true) (hl : carriesDebug x = false)
    (hn : x.op ≠ .label) : r = true ∧ (x.op = .variable ∨ x.op = .phi) := by
  unfold newRegion at h
  split at h
  · simp_all
  · rename_i ho; exact ⟨h, .inl ho⟩
  · rename_i ho; exact ⟨h, .inr ho⟩
  · rename_i ho; simp [carriesDebug, PInst.isLineInst, PInst.isLine, ho] at hl
  · rename_i ho; simp [carriesDebug, PInst.isLineInst, PInst.isNoLine, ho] at hl
  · cases h

/-- The line instructions between merge and branch are not written. -/
theorem write_lines_gap : ∀ (ls : List LineInst) (e : E), (∀ l ∈ ls, l.inst.isLineInst = true) → e.merge = true →
    writeAll c e (ls.map .line) = some ([], e)
  | [], e, _, _ => rfl
  | l :: ls, e, hl, hm => by
    obtain ⟨n1, n2, n3, n4, n5⟩ := isLineInst_ops (hl l (by simp))
    have h1 : writeInst c e (.line l) = some ([], e) := by
      unfold writeInst
      have hdup : isDup c e (Item.line l).x = false := by simp [isDup, Item.x, n4]
      have hseen : addSeen c e (Item.line l).x = e := by simp [addSeen, Item.x, n4]
      simp only [hdup, hseen, Bool.false_eq_true, if_false]
      simp [hm, Item.x, hl l (by simp)]
    exact writeAll_cons h1 (write_lines_gap ls e (fun l hl' => hl l (by simp [hl'])) hm)

theorem write_body (hP : NoClash P) : ∀ (is : List Instr) (rg : Bool) (am : Option (Option Key)) (e : E) (o : Eff),
    BodyOk P c rg am is →
    (am = none → InInv P c rg e o) →
    (∀ k, am = some k → e.merge = true ∧ e.line = none ∧ o.line = k ∧ o.scope = noScope ∧ e.scope = noScope) →
    ∃ out e' o', writeAll c e (is.flatMap Instr.items) = some (out, e') ∧
      run o out = (writtenI c e.seen is, o') ∧ OutInv P c e' o' ∧ e'.seen = seenAll c e.seen is
  | [], _, _, _, _, h, _, _ => h.elim
  | i :: is, rg, none, e, o, hb, hin, _ => by
    obtain ⟨hok, _, hrest⟩ := hb
    have h := hin rfl
    obtain ⟨out1, e1, o1, w1, w2, w3, w4, w5⟩ := write_lines_in (c := c) hP (rg := rg) i.lines e o
      (fun l hl => ⟨(hok.lines l hl).1, (hok.lines l hl).2, by
        rcases hok.dbg with h | h
        · exact .inl h
        · exact .inr (h.2 l hl), fun a b => (hok.opens a b).1 l hl⟩) h
    have hdp : DbgOk c ∨ (e1.scope = noScope ∧ i.scope = noScope) := by
      rcases w3.dbg with h | h
      · exact .inl h
      · rcases hok.dbg with h' | h'
        · exact .inl h'
        · exact .inr ⟨h, h'.1⟩
    obtain ⟨out2, e2, o2, v1, v2, v3, v4⟩ := write_plain (c := c) (P := P) hok.plain w3.line w3.merge hdp
    rw [w5] at v2 v3 v4
    have hitems : writeAll c e i.items = some (out1 ++ out2, e2) := bind_some w1 (writeAll_one v1)
    have scEq : ∀ sc, (sc = if i.scope ≠ e1.scope ∧ (newRegion e1.region i.inst = false ∨ c.cl100 = true)
        then norm i.scope else o1.scope) → sc = i.scope := by
      intro sc hsc
      rw [hsc]
      by_cases he : i.scope = e1.scope
      · simp [he, w3.scope]
        rw [← he]; exact hok.normal
      · by_cases hr : newRegion e1.region i.inst = false ∨ c.cl100 = true
        · simp [he, hr, hok.normal]
        · exfalso
          have hr' : newRegion e1.region i.inst = true ∧ c.cl100 = false := by simpa using hr
          obtain ⟨r1, r2⟩ := newRegion_in hr'.1 hok.plain hok.notLabel
          obtain ⟨q1, q2⟩ := w3.region r1
          exact he (((hok.opens q1 hr'.2).2 r2).trans (q2 hr'.2).symm)
    have hrun1 : run o (out1 ++ out2) = (if keeps c e.seen i.inst then [infoOf i] else [], o2) := by
      rw [run_append, w2]
      cases hk : keeps c e.seen i.inst with
      | false => simp [(v3 hk).1]
      | true =>
        obtain ⟨sc, hsc, hrun, _⟩ := v4 hk
        rw [hrun]
        have hs := scEq sc hsc
        simp only [List.nil_append, infoOf, if_true, line_eq_lastKey i o.line, w4, hs]
        by_cases hm : i.inst.op = .merge
        · simp [hm, hok.merge hm]
        · simp [hm]
    have hnext : i.inst.op ≠ .merge → i.inst.op ≠ .terminator → InInv P c (rg && opening i.inst) e2 o2 := by
      intro hm ht
      cases hk : keeps c e.seen i.inst with
      | false =>
        obtain ⟨_, a1, a2, a3, a4, a5⟩ := v3 hk
        refine ⟨a1, a2, by rw [a4, a3]; exact w3.scope, ?_, by rw [a3]; exact w3.dbg⟩
        intro hr
        rcases a5 with a5 | a5
        · rw [a5] at hr; cases hr
        · rw [a5] at hr
          obtain ⟨q1, q2⟩ := w3.region hr
          refine ⟨?_, by rw [a3]; exact q2⟩
          rw [q1]
          simp only [Bool.true_and]
          by_cases hn : i.inst.op = .nop
          · -- a skipped nop closes the region
            exfalso
            have hdup : isDup c e1 (Item.inst i).x = false := by simp [isDup, Item.x, hn]
            have hseen : addSeen c e1 (Item.inst i).x = e1 := by simp [addSeen, Item.x, hn]
            have hl1 : i.inst.isLine = false := by simp [PInst.isLine, hn]
            have hl2 : i.inst.isNoLine = false := by simp [PInst.isNoLine, hn]
            have : e2.region = false := by
              unfold writeInst at v1
              simp only [hdup, hseen, Bool.false_eq_true, if_false, w3.merge, Bool.false_and] at v1
              have hskip : c.skipNop = true := by
                simp [keeps, hn] at hk; exact hk
              have hw : ∀ e : E, writeStage c { e with region := newRegion e.region (Item.inst i).x } (.inst i) =
                  some ([], { e with region := false }) := by
                intro e; simp [writeStage, Item.x, hn, hskip, newRegion]
              cases hls : lineStage c e1 (.inst i) with
              | none => rw [hls] at v1; cases v1
              | some r =>
                rw [hls] at v1
                cases r with
                | none =>
                  unfold lineStage at hls
                  split at hls
                  · cases hls
                  · simp [Item.x, hl1, hl2] at hls
                    split at hls <;> cases hls
                | some r =>
                  simp only [hw] at v1
                  have := (Prod.mk.inj (Option.some.inj v1)).2
                  rw [← this]
                  simp [finishStage, Item.x, hn, hl1, hl2]
            rw [a5, hr] at this; cases this
          · have : i.inst.op = .annotation true := by
              simp only [keeps, Bool.and_eq_false_iff, Bool.not_eq_false', Bool.and_eq_true, decide_eq_true_eq] at hk
              rcases hk with hk | hk
              · exact hk.1.2
              · exact absurd hk.2 hn
            simp [opening, this]
      | true =>
        obtain ⟨sc, hsc, hrun, ho, hl, _, hmg, hs, hr⟩ := v4 hk
        have hsi := scEq sc hsc
        refine ⟨hl hm, by simp [hmg, hm], ?_, ?_, ?_⟩
        · rw [ho, hs]; simp [nextEff, hm, ht, hsi, hok.normal]
        · intro hrr
          rw [hr] at hrr
          obtain ⟨r1, r2⟩ := newRegion_in hrr hok.plain hok.notLabel
          obtain ⟨q1, q2⟩ := w3.region r1
          refine ⟨?_, ?_⟩
          · rw [q1]
            rcases r2 with r2 | r2 <;> simp [opening, r2]
          · intro hc
            rw [hs]; exact (hok.opens q1 hc).2 r2
        · rcases hok.dbg with h | h
          · exact .inl h
          · right; rw [hs]; exact h.1
    by_cases ht : i.inst.op = .terminator
    · rw [if_pos ht] at hrest
      subst hrest
      obtain ⟨hk, hse⟩ := keeps_of_ne (c := c) (seen := e.seen) (x := i.inst) (by simp [ht]) (by simp [ht])
      obtain ⟨sc, hsc, hrun, ho, hl, _, hmg, hs, hr⟩ := v4 hk
      refine ⟨out1 ++ out2, e2, o2, by simpa using hitems, ?_, ⟨hl (by simp [ht]), by simp [hmg, ht], ?_, ?_⟩, ?_⟩
      · rw [hrun1]; simp [writtenI]
      · rw [ho]; simp [nextEff, ht, Eff.none]
      · rcases hok.dbg with h | h
        · exact .inl h
        · right; rw [hs]; exact h.1
      · rw [v2]; simp [seenAll]
    · rw [if_neg ht] at hrest
      by_cases hm : i.inst.op = .merge
      · rw [if_pos hm] at hrest
        obtain ⟨hk, hse⟩ := keeps_of_ne (c := c) (seen := e.seen) (x := i.inst) (by simp [hm]) (by simp [hm])
        obtain ⟨sc, hsc, hrun, ho, hl, hln, hmg, hs, hr⟩ := v4 hk
        obtain ⟨out3, e3, o3, x1, x2, x3, x4⟩ := write_body hP is _ (some i.line) e2 o2 hrest (fun h => by cases h) (by
          intro k hk'
          cases hk'
          refine ⟨by simp [hmg, hm], hln hm, ?_, ?_, by rw [hs]; exact hok.merge hm⟩
          · rw [ho]; simp [nextEff, hm, line_eq_lastKey i o.line, w4]
          · rw [ho]; simp [nextEff, hm])
        refine ⟨(out1 ++ out2) ++ out3, e3, o3, ?_, ?_, x3, ?_⟩
        · rw [List.flatMap_cons]; exact bind_some hitems x1
        · rw [run_append, hrun1]; simp only [x2, writtenI]; rw [v2]
        · rw [x4, v2]; rfl
      · rw [if_neg hm] at hrest
        obtain ⟨out3, e3, o3, x1, x2, x3, x4⟩ := write_body hP is _ none e2 o2 hrest (fun _ => hnext hm ht)
          (fun k h => by cases h)
        refine ⟨(out1 ++ out2) ++ out3, e3, o3, ?_, ?_, x3, ?_⟩
        · rw [List.flatMap_cons]; exact bind_some hitems x1
        · rw [run_append, hrun1]; simp only [x2, writtenI]; rw [v2]
        · rw [x4, v2]; rfl
  | i :: is, rg, some k, e, o, hb, _, hin => by
    obtain ⟨hok, ham, hrest⟩ := hb
    obtain ⟨ht, hk, hsn⟩ := ham k rfl
    rw [if_pos ht] at hrest
    subst hrest
    obtain ⟨h1, h2, h3, h4, h5⟩ := hin k rfl
    obtain ⟨hkp, hse⟩ := keeps_of_ne (c := c) (seen := e.seen) (x := i.inst) (by simp [ht]) (by simp [ht])
    have hw := write_lines_gap (c := c) i.lines e (fun l hl => (hok.lines l hl).1) h1
    have hl1 : i.inst.isLine = false := by simp [PInst.isLine, ht]
    have hl2 : i.inst.isNoLine = false := by simp [PInst.isNoLine, ht]
    have hwi : writeInst c e (.inst i) = some ([i.inst], { e with region := false, merge := false, line := none }) := by
      unfold writeInst
      have hdup : isDup c e (Item.inst i).x = false := by simp [isDup, Item.x, ht]
      have hseen : addSeen c e (Item.inst i).x = e := by simp [addSeen, Item.x, ht]
      simp only [hdup, hseen, Bool.false_eq_true, if_false]
      simp [Item.x, PInst.isLineInst, hl1, hl2, lineStage, h2, writeStage, ht, scopeStage, h1, newRegion,
        finishStage, h5]
    refine ⟨[] ++ [i.inst], { e with region := false, merge := false, line := none }, Eff.none, ?_, ?_, ⟨⟨rfl, by simp⟩, rfl, rfl, .inr h5⟩, ?_⟩
    · have : [i].flatMap Instr.items = i.lines.map .line ++ [.inst i] := by
        rw [List.flatMap_cons, List.flatMap_nil, List.append_nil]; rfl
      rw [this]
      exact bind_some hw (writeAll_one hwi)
    · rw [List.nil_append, run_plain hok.plain]
      simp [writtenI, hkp, infoOf, h3, hk, h4, hsn, ht, nextEff]
    · simp [seenAll, hse]

/-! ## Sequences that can be written from anywhere outside blocks -/

def OkSeq (P : Key → Prop) (c : Cfg) (l : List Instr) : Prop :=
  ∀ e o, OutInv P c e o → ∃ out e' o', writeAll c e (l.flatMap Instr.items) = some (out, e') ∧
    run o out = (writtenI c e.seen l, o') ∧ OutInv P c e' o' ∧ e'.seen = seenAll c e.seen l

theorem writtenI_append : ∀ (a b : List Instr) (seen : List (List Word)),
    writtenI c seen (a ++ b) = writtenI c seen a ++ writtenI c (seenAll c seen a) b
  | [], b, seen => rfl
  | i :: a, b, seen => by simp [writtenI, seenAll, writtenI_append a b]

theorem seenAll_append : ∀ (a b : List Instr) (seen : List (List Word)),
    seenAll c seen (a ++ b) = seenAll c (seenAll c seen a) b
  | [], b, seen => rfl
  | i :: a, b, seen => by simp [seenAll, seenAll_append a b]

theorem OkSeq.nil : OkSeq P c [] := fun e o h => ⟨[], e, o, rfl, rfl, h, rfl⟩

theorem OkSeq.append {a b : List Instr} (ha : OkSeq P c a) (hb : OkSeq P c b) : OkSeq P c (a ++ b) := by
  intro e o h
  obtain ⟨out, e1, o1, w1, w2, w3, w4⟩ := ha e o h
  obtain ⟨out2, e2, o2, v1, v2, v3, v4⟩ := hb e1 o1 w3
  refine ⟨out ++ out2, e2, o2, ?_, ?_, v3, ?_⟩
  · rw [List.flatMap_append]; exact bind_some w1 v1
  · rw [run_append, w2, writtenI_append]; simp [v2, w4]
  · rw [v4, w4, seenAll_append]

theorem OkSeq.one (hP : NoClash P) {i : Instr} (h : OutOk P i) : OkSeq P c [i] := by
  intro e o he
  obtain ⟨out, e', o', w1, w2, w3, w4, _⟩ := write_out (c := c) hP h he
  exact ⟨out, e', o', by simpa using w1, by simpa [writtenI] using w2, w3, by simpa [seenAll] using w4⟩

theorem OkSeq.all (hP : NoClash P) : ∀ {l : List Instr}, (∀ i ∈ l, OutOk P i) → OkSeq P c l
  | [], _ => OkSeq.nil
  | i :: l, h => by
    have := OkSeq.append (OkSeq.one (c := c) hP (h i (by simp))) (OkSeq.all hP (l := l) fun j hj => h j (by simp [hj]))
    simpa using this

theorem OkSeq.flat : ∀ {ls : List (List Instr)}, (∀ l ∈ ls, OkSeq P c l) → OkSeq P c ls.flatten
  | [], _ => OkSeq.nil
  | l :: ls, h => by
    have := OkSeq.append (h l (by simp)) (OkSeq.flat (ls := ls) fun j hj => h j (by simp [hj]))
    simpa using this

/-- A block. -/
def BlockOk (P : Key → Prop) (c : Cfg) (b : List Instr) : Prop :=
  ∃ l body, b = l :: body ∧ l.inst.op = .label ∧ OutOk P l ∧ BodyOk P c true none body

theorem OkSeq.block (hP : NoClash P) {b : List Instr} (h : BlockOk P c b) : OkSeq P c b := by
  obtain ⟨l, body, rfl, hl, ho, hb⟩ := h
  intro e o he
  obtain ⟨out, e1, o1, w1, w2, w3, w4, w5⟩ := write_out (c := c) hP ho he
  obtain ⟨hk, hse⟩ := keeps_of_ne (c := c) (seen := e.seen) (x := l.inst) (by simp [hl]) (by simp [hl])
  obtain ⟨hs, hr⟩ := w5 hk
  obtain ⟨out2, e2, o2, v1, v2, v3, v4⟩ := write_body (c := c) hP body true none e1 o1 hb
    (fun _ => ⟨w3.line, w3.merge, by rw [hs, w3.scope]; rfl, fun _ => ⟨rfl, fun _ => hs⟩, .inr hs⟩)
    (fun k h => by cases h)
  refine ⟨out ++ out2, e2, o2, ?_, ?_, v3, ?_⟩
  · rw [List.flatMap_cons]; exact bind_some w1 v1
  · rw [run_append, w2]; simp only [v2, writtenI]; rw [w4]
  · rw [v4, w4]; rfl

end Verif.Loader
