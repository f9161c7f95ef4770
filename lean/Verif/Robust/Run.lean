import Verif.Robust.Top

set_option linter.unusedSimpArgs false
set_option linter.unusedVariables false

namespace Verif.Robust

open Spec

theorem defOk_mono {c e} {S S' : Nat → Prop} {loc loc' : Nat → Loc} (hS : ∀ p, S p → S' p)
    (hl : ∀ p, S p → loc p = loc' p) {l : Loc} : ∀ {d : PDef}, DefOk c e S loc l d →
    DefOk c e S' loc' l d
  | .chain base idx, ⟨h1, h2, vs, h3, h4, h5⟩ =>
    ⟨hS _ h1, usesList_mono hS _ h2, vs, by rw [← h3, evalList_congr hl _ h2], by rw [h4, hl _ h1], h5⟩
  | .copy src, ⟨h1, h2⟩ => ⟨hS _ h1, by rw [h2, hl _ h1]⟩
  | .other, h => h

theorem Inv.extend {c e S S' defs loc} (inv : Inv c e S defs loc) {id : Nat} {l : Loc} {d : PDef}
    (hid : ¬ S id) (hS : ∀ p, S p → S' p) (hS' : ∀ p, S' p → S p ∨ p = id)
    (hd : DefOk c e S loc l d) (ht : typeAt (c.pointee l.root) l.path = some (c.pointee id))
    (hb : InBounds c e l) (hv : ValidType c e (c.pointee l.root)) :
    Inv c e S' (setDef defs id d) (setLoc loc id l) := by
  have hl : ∀ p, S p → loc p = setLoc loc id l p := by
    intro p hp
    have : p ≠ id := fun h => hid (h ▸ hp)
    simp [setLoc, this]
  refine ⟨fun p hp => ?_, fun p hp => ?_, fun p hp => ?_, fun p hp => ?_⟩
  all_goals
    by_cases hpi : p = id
    · subst hpi
      simp only [setLoc, setDef, if_true]
      first | exact defOk_mono hS hl hd | assumption
    · have hSp := (hS' p hp).resolve_right hpi
      simp only [setLoc, setDef, hpi, if_false]
      first
        | exact defOk_mono hS hl (inv.defn p hSp)
        | exact inv.type p hSp
        | exact inv.bounds p hSp
        | exact inv.valid p hSp

/-- The pointers which the instructions do not make. -/
def Settled (is : List PInst) (p : Nat) : Prop := ∀ j ∈ is, j.id ≠ p

theorem settled_cons {i : PInst} {is : List PInst} {p : Nat} :
    Settled (i :: is) p ↔ p ≠ i.id ∧ Settled is p := by
  simp only [Settled, List.mem_cons, forall_eq_or_imp]
  exact ⟨fun h => ⟨fun h' => h.1 h'.symm, h.2⟩, fun h => ⟨fun h' => h.1 h'.symm, h.2⟩⟩

theorem evalList_ids {c e loc} : ∀ {idx : List Ix}, (∀ x ∈ idx, ∃ n, x = .id n) →
    evalList c e loc idx = some (idx.map (value c e))
  | [], _ => by simp [evalList]
  | x :: idx, h => by
    obtain ⟨n, rfl⟩ := h x (by simp)
    have := evalList_ids (c := c) (e := e) (loc := loc) (idx := idx) fun x hx => h x (by simp [hx])
    simp [evalList, eval, this, value]

theorem setDef_self (defs : Nat → PDef) (id : Nat) : setDef defs id (defs id) = defs := by
  funext p; simp only [setDef]; split <;> simp_all

theorem setLoc_self (loc : Nat → Loc) (id : Nat) : setLoc loc id (loc id) = loc := by
  funext p; simp only [setLoc]; split <;> simp_all

theorem process_sound {c e fuel} (k : Known c e) :
    ∀ (is : List PInst) (defs : Nat → PDef) (loc locO : Nat → Loc) (out : List PInst),
    Inv c e (Settled is) defs loc → Ordered is → (∀ i ∈ is, WellTyped c e i) →
    (∀ i ∈ is, defs i.id = i.defn) →
    (∀ i ∈ is, i.defn = .other → ValidType c e (c.pointee i.id)) →
    (∀ i ∈ is, loc i.id = ⟨i.id, []⟩ ∧ locO i.id = ⟨i.id, []⟩) →
    (∀ p, Settled is p → InBounds c e (locO p) → loc p = locO p) →
    c.process fuel defs is = .ok out →
    ∃ loc' locO', exec c e loc out = some loc' ∧ exec c e locO is = some locO' ∧
      (∀ p, InBounds c e (loc' p)) ∧ (∀ p, InBounds c e (locO' p) → loc' p = locO' p) ∧
      (∀ p, typeAt (c.pointee (loc' p).root) (loc' p).path = some (c.pointee p))
  | [], defs, loc, locO, out, inv, _, _, _, _, _, same, h => by
    simp only [Ctx.process, Except.ok.injEq] at h
    subst h
    have hs : ∀ p, Settled [] p := by simp [Settled]
    exact ⟨loc, locO, rfl, rfl, fun p => inv.bounds p (hs p), fun p => same p (hs p),
      fun p => inv.type p (hs p)⟩
  | ⟨id, d⟩ :: rest, defs, loc, locO, out, inv, ord, typed, hdefs, hvalid, hfresh, same, h => by
    obtain ⟨ord1, ord2, ord3⟩ := ord
    have hnS : ¬ Settled (⟨id, d⟩ :: rest) id := by simp [Settled]
    have hS1 : ∀ p, Settled (⟨id, d⟩ :: rest) p → Settled rest p := fun p hp => (settled_cons.mp hp).2
    have hS2 : ∀ p, Settled rest p → Settled (⟨id, d⟩ :: rest) p ∨ p = id := fun p hp => by
      by_cases h : p = id
      · exact .inr h
      · exact .inl (settled_cons.mpr ⟨h, hp⟩)
    have wt := typed ⟨id, d⟩ (by simp)
    have typed' : ∀ i ∈ rest, WellTyped c e i := fun i hi => typed i (by simp [hi])
    have hvalid' : ∀ i ∈ rest, i.defn = .other → ValidType c e (c.pointee i.id) :=
      fun i hi => hvalid i (by simp [hi])
    cases d with
    | chain base idx =>
      simp only [WellTyped] at wt
      have hbase := ord2 base (by simp [PInst.uses])
      have hSb : Settled (⟨id, .chain base idx⟩ :: rest) base := by
        rw [settled_cons]; exact ⟨hbase.1, hbase.2⟩
      simp only [Ctx.process] at h
      cases hc : c.clampFrom defs fuel base (c.pointee base) [] idx with
      | error x => simp [hc, bind, Except.bind] at h
      | ok idx' =>
        simp only [hc, bind, Except.bind] at h
        cases hp : c.process fuel (setDef defs id (.chain base idx')) rest with
        | error x => simp [hp] at h
        | ok rest' =>
          simp only [hp, pure, Except.pure, Except.ok.injEq] at h
          subst h
          have P0 : Part c e (Settled (⟨id, .chain base idx⟩ :: rest)) loc base (c.pointee base) [] [] :=
            ⟨trivial, by simp [evalList], by simp [typeAt], by simpa using inv.bounds base hSb,
              fun k => by simp [Ctx.typeOf, typeAt]⟩
          obtain ⟨vs, P, _, hsame⟩ := clampFrom_sound k inv hSb idx _ [] [] _ idx' P0 wt.1 wt.2 hc
          have inv' := inv.extend (S' := Settled rest) (l := ⟨(loc base).root, (loc base).path ++ vs⟩)
            (d := .chain base idx') hnS hS1 hS2
            ⟨hSb, P.uses, vs, P.eval, rfl, P.same⟩
            (by rw [typeAt_append, inv.type base hSb]; exact P.type) P.bounds (inv.valid base hSb)
          have hne : ∀ i ∈ rest, i.id ≠ id := ord1
          obtain ⟨loc', locO', r1, r2, r3, r4, r5⟩ := process_sound k rest _ _
            (setLoc locO id ⟨(locO base).root, (locO base).path ++ idx.map (value c e)⟩) rest'
            inv' ord3 typed'
            (fun i hi => by simp [setDef, hne i hi]; exact hdefs i (by simp [hi])) hvalid'
            (fun i hi => by simp [setLoc, hne i hi]; exact hfresh i (by simp [hi]))
            (fun p hp hin => by
              rcases hS2 p hp with hp' | rfl
              · have : p ≠ id := (settled_cons.mp hp').1
                simp only [setLoc, this, if_false] at hin ⊢
                exact same p hp' hin
              · simp only [setLoc, if_true] at hin ⊢
                -- the base is in bounds, too
                have hpre : InBounds c e (locO base) := by
                  simp only [InBounds] at hin ⊢
                  revert hin
                  generalize (locO base).path = q
                  generalize c.pointee (locO base).root = t
                  generalize ([] : List Int) = pre
                  induction q generalizing pre t with
                  | nil => intros; simp [InBoundsFrom]
                  | cons a q ih =>
                    cases t <;> simp only [List.cons_append, InBoundsFrom, imp_self]
                    · exact fun h => ⟨h.1, h.2.1, ih _ _ h.2.2⟩
                    · exact fun h => ⟨h.1, h.2.1, ih _ _ h.2.2⟩
                    · exact fun h => ⟨h.1, h.2.1, ih _ _ h.2.2⟩
                    · exact fun ⟨h, t, h1, h2⟩ => ⟨h, t, h1, ih _ _ h2⟩
                have heq := same base hSb hpre
                rw [← heq] at hin ⊢
                have hin' := (inBounds_append e (loc base).root [] (c.pointee (loc base).root)
                  (loc base).path (idx.map (value c e)) (inv.type base hSb)).mp hin
                rw [hsame (by simpa using hin'.2)]
                simp) hp
          refine ⟨loc', locO', ?_, ?_, r3, r4, r5⟩
          · simp only [exec, P.eval]; exact r1
          · simp only [exec, evalList_ids wt.1]; exact r2
    | copy src =>
      simp only [WellTyped] at wt
      have hsrc := ord2 src (by simp [PInst.uses])
      have hSs : Settled (⟨id, .copy src⟩ :: rest) src := by
        rw [settled_cons]; exact ⟨hsrc.1, hsrc.2⟩
      simp only [Ctx.process, bind, Except.bind] at h
      cases hp : c.process fuel defs rest with
      | error x => simp [hp] at h
      | ok rest' =>
        simp only [hp, pure, Except.pure, Except.ok.injEq] at h
        subst h
        have inv' := inv.extend (S' := Settled rest) (l := loc src)
          (d := .copy src) hnS hS1 hS2 ⟨hSs, rfl⟩
          (by rw [wt]; exact inv.type src hSs) (inv.bounds src hSs) (inv.valid src hSs)
        have hdd := hdefs ⟨id, .copy src⟩ (by simp)
        simp only at hdd
        rw [← hdd, setDef_self] at inv'
        obtain ⟨loc', locO', r1, r2, r3, r4, r5⟩ := process_sound k rest _ _
          (setLoc locO id (locO src)) rest'
          inv' ord3 typed' (fun i hi => hdefs i (by simp [hi])) hvalid'
          (fun i hi => by simp [setLoc, ord1 i hi]; exact hfresh i (by simp [hi]))
          (fun p hp hin => by
            rcases hS2 p hp with hp' | rfl
            · have : p ≠ id := (settled_cons.mp hp').1
              simp only [setLoc, this, if_false] at hin ⊢
              exact same p hp' hin
            · simp only [setLoc, if_true] at hin ⊢
              exact same src hSs hin) hp
        exact ⟨loc', locO', by simpa [exec] using r1, by simpa [exec] using r2, r3, r4, r5⟩
    | other =>
      simp only [Ctx.process, bind, Except.bind] at h
      cases hp : c.process fuel defs rest with
      | error x => simp [hp] at h
      | ok rest' =>
        simp only [hp, pure, Except.pure, Except.ok.injEq] at h
        subst h
        have hf := hfresh ⟨id, .other⟩ (by simp)
        simp only at hf
        have inv' := inv.extend (S' := Settled rest) (l := ⟨id, []⟩)
          (d := .other) hnS hS1 hS2 rfl (by simp [typeAt]) (by simp [InBounds, InBoundsFrom])
          (hvalid ⟨id, .other⟩ (by simp) rfl)
        have hdd := hdefs ⟨id, .other⟩ (by simp)
        simp only at hdd
        rw [← hdd, setDef_self, ← hf.1, setLoc_self] at inv'
        obtain ⟨loc', locO', r1, r2, r3, r4, r5⟩ := process_sound k rest _ _ locO rest'
          inv' ord3 typed' (fun i hi => hdefs i (by simp [hi])) hvalid'
          (fun i hi => hfresh i (by simp [hi]))
          (fun p hp hin => by
            rcases hS2 p hp with hp' | rfl
            · exact same p hp' hin
            · rw [hf.1, hf.2]) hp
        exact ⟨loc', locO', by simpa [exec] using r1, by simpa [exec] using r2, r3, r4, r5⟩

theorem defsOf_mem : ∀ {is : List PInst}, Ordered is → ∀ i ∈ is, defsOf is i.id = i.defn
  | [], _, i, hi => by simp at hi
  | j :: rest, ord, i, hi => by
    simp only [defsOf, setDef]
    split
    · rename_i heq
      rcases List.mem_cons.mp hi with rfl | hi
      · rfl
      · exact absurd heq (ord.1 i hi)
    · rename_i hne
      rcases List.mem_cons.mp hi with rfl | hi
      · exact absurd rfl hne
      · exact defsOf_mem ord.2.2 i hi

theorem defsOf_not {is : List PInst} {p : Nat} (h : Settled is p) : defsOf is p = .other := by
  induction is with
  | nil => rfl
  | cons j rest ih =>
    have := settled_cons.mp h
    simp [defsOf, setDef, this.1, ih this.2]

theorem run_sound {c e fuel is out} (f : Fits c e is) (h : c.run fuel is = .ok out) :
    ∃ loc' locO', exec c e start out = some loc' ∧ exec c e start is = some locO' ∧
      (∀ p, InBounds c e (loc' p)) ∧ (∀ p, InBounds c e (locO' p) → loc' p = locO' p) ∧
      (∀ p, typeAt (c.pointee (loc' p).root) (loc' p).path = some (c.pointee p)) := by
  have hdist : ∀ i ∈ is, i.defn = .other → ∀ j ∈ is, j.id = i.id → j.defn = .other := by
    intro i hi hio j hj heq
    rw [← defsOf_mem f.ordered j hj, heq, defsOf_mem f.ordered i hi, hio]
  refine process_sound f.known is (defsOf is) start start out ?_ f.ordered f.typed
    (defsOf_mem f.ordered) (fun i hi hio => f.types _ (hdist i hi hio))
    (fun i hi => ⟨rfl, rfl⟩) (fun p hp _ => rfl) h
  refine ⟨fun p hp => by rw [defsOf_not hp]; rfl, fun p hp => by simp [start, typeAt],
    fun p hp => by simp [start, InBounds, InBoundsFrom], fun p hp => f.types _ ?_⟩
  intro i hi heq
  exact absurd heq (hp i hi)

end Verif.Robust
