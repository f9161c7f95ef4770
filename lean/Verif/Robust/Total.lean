import Verif.Robust.Run

set_option linter.unusedSimpArgs false
set_option linter.unusedVariables false

namespace Verif.Robust

open Spec

/-- Walking backward ends. -/
def Ranked (defs : Nat → PDef) (rank : Nat → Nat) : Prop :=
  ∀ p, match defs p with
    | .chain b _ => rank b < rank p
    | .copy s => rank s < rank p
    | .other => True

/-- Steps needed. -/
def need (rank : Nat → Nat) : PDef → Nat
  | .chain b _ => rank b + 1
  | .copy s => rank s + 1
  | .other => 0

theorem need_le {defs rank} (h : Ranked defs rank) (p : Nat) : need rank (defs p) ≤ rank p := by
  have := h p
  cases hd : defs p <;> simp only [hd] at this <;> simp only [need] <;> omega

theorem unwind_total {c e S defs loc rank} (inv : Inv c e S defs loc) (hr : Ranked defs rank) :
    ∀ (fuel : Nat) (d : PDef) (l : Loc) (steps : Nat),
    DefOk c e S loc l d → 0 < steps → steps ≤ l.path.length → need rank d < fuel →
    ∃ r, unwind defs fuel d steps = .ok r
  | 0, d, l, steps, _, _, _, h => by omega
  | fuel + 1, .chain base idx, l, steps, hd, h0, hl, hf => by
    obtain ⟨hS, hU, vs, hvs, rfl, hT⟩ := hd
    have hlen := evalList_length hvs
    simp only [unwind]
    split
    · exact ⟨_, rfl⟩
    · split
      · simp at hl
        have := need_le hr base
        simp only [need] at hf
        exact unwind_total inv hr fuel _ (loc base) _ (inv.defn base hS) (by omega) (by omega)
          (by omega)
      · exact ⟨_, rfl⟩
  | fuel + 1, .copy src, l, steps, hd, h0, hl, hf => by
    obtain ⟨hS, rfl⟩ := hd
    have := need_le hr src
    simp only [need] at hf
    simp only [unwind]
    exact unwind_total inv hr fuel _ (loc src) _ (inv.defn src hS) h0 hl (by omega)
  | fuel + 1, .other, l, steps, hd, h0, hl, hf => by
    simp only [DefOk] at hd
    simp [hd] at hl
    omega

theorem arrayLength_total {c e S defs loc base el done dv n fuel rank}
    (inv : Inv c e S defs loc) (hr : Ranked defs rank) (hf : rank base + 1 < fuel) (hS : S base)
    (P : Part c e S loc base (.runtime el) done dv) :
    ∃ len, c.arrayLength defs fuel base (done ++ [.id n]) = .ok len := by
  have hd : DefOk c e S loc ⟨(loc base).root, (loc base).path ++ (dv ++ [V.signed ⟨c.width n, e.val n⟩])⟩
      (.chain base (done ++ [.id n])) :=
    ⟨hS, usesList_append.mpr ⟨P.uses, by simp [UsesList, Uses]⟩, _,
      evalList_snoc P.eval (v := ⟨c.width n, e.val n⟩) (by simp [eval]), rfl,
      sameTypes_snoc (evalList_length P.eval) P.same P.type (by simp [Ctx.typeOf, typeAt])⟩
  have hrt : typeAt (c.pointee (loc base).root) ((loc base).path ++ dv) = some (.runtime el) := by
    rw [typeAt_append, inv.type base hS]; exact P.type
  obtain ⟨q, ts, hq, hts⟩ := (inv.valid base hS).runtime _ _ hrt
  have hpl : 2 ≤ ((loc base).path ++ (dv ++ [V.signed ⟨c.width n, e.val n⟩])).length := by
    rw [← List.append_assoc, hq]; simp
  obtain ⟨⟨b, is⟩, hun⟩ := unwind_total inv hr fuel _ _ 2 hd (by omega) hpl (by simp [need]; omega)
  obtain ⟨hb, hU, vs, drop, hvs, hroot, hpath, hlen, hty⟩ := unwind_sound inv fuel _ _ 2 b is hd hun
  simp only at hroot hpath
  obtain ⟨d0, d1, rfl⟩ : ∃ d0 d1, drop = [d0, d1] := by
    match drop, hlen with
    | [a, b], _ => exact ⟨a, b, rfl⟩
  have e1 : ((loc b).path ++ vs ++ [d0]) ++ [d1] =
      ((loc base).path ++ dv) ++ [V.signed ⟨c.width n, e.val n⟩] := by simpa using hpath
  have e2 := (List.append_inj' e1 rfl).1
  have e3 := List.append_inj' (e2.trans hq) rfl
  have hts' : typeAt (c.pointee b) vs = some (.struct ts) := by
    have := hts
    rw [← e3.1, typeAt_append, ← hroot, inv.type b hb] at this
    exact this
  simp [Ctx.arrayLength, hun, hty, hts']

theorem shift_zero {m w : Nat} (h : m < 2 ^ w) : m >>> w = 0 := by
  rw [Nat.shiftRight_eq_div_pow]; exact Nat.div_eq_of_lt h

theorem maxWidth_32 {w m : Nat} (hw : w = 8 ∨ w = 16 ∨ w = 32) (h : m < 2 ^ 32) :
    maxWidth 7 w m ≤ 32 := by
  have h32 : m >>> 32 = 0 := shift_zero h
  rcases hw with rfl | rfl | rfl <;> simp only [maxWidth, h32] <;> repeat' split
  all_goals simp_all

theorem clampLiteral_total {c e is n count} (s : Supported c e is)
    (h : count ≤ 2 ^ 32 ∨ c.int64 = true) : ∃ i, c.clampLiteral n count = .ok i := by
  have hw := s.width n
  have hn := s.null n
  unfold Ctx.clampLiteral
  simp only
  split
  · exact ⟨_, rfl⟩
  rename_i hc
  rw [if_neg (by omega)]
  split
  · contradiction
  · split
    · exact ⟨_, rfl⟩
    split <;> exact ⟨_, rfl⟩
  · rcases hw with hw | hw | hw | hw
    · have hm := maxWidth_32 (w := c.width n) (m := count - 1) (by omega)
      rw [if_neg (by simp; omega)]
      split
      · rcases h with h | h
        · have := hm (by omega)
          rw [if_neg (by simp; omega)]; exact ⟨_, rfl⟩
        · rw [if_neg (by simp [h])]; exact ⟨_, rfl⟩
      · exact ⟨_, rfl⟩
    · have hm := maxWidth_32 (w := c.width n) (m := count - 1) (by omega)
      rw [if_neg (by simp; omega)]
      split
      · rcases h with h | h
        · have := hm (by omega)
          rw [if_neg (by simp; omega)]; exact ⟨_, rfl⟩
        · rw [if_neg (by simp [h])]; exact ⟨_, rfl⟩
      · exact ⟨_, rfl⟩
    · have hm := maxWidth_32 (w := c.width n) (m := count - 1) (by omega)
      rw [if_neg (by simp; omega)]
      split
      · rcases h with h | h
        · have := hm (by omega)
          rw [if_neg (by simp; omega)]; exact ⟨_, rfl⟩
        · rw [if_neg (by simp [h])]; exact ⟨_, rfl⟩
      · exact ⟨_, rfl⟩
    · rw [if_neg (by simp [hw.2])]
      split
      · rw [if_neg (by simp [hw.2])]; exact ⟨_, rfl⟩
      · exact ⟨_, rfl⟩

theorem clampArray_total {c e is n len} (k : Known c e) (s : Supported c e is)
    (hs : c.signed len = true → e.val len < 2 ^ (c.width len - 1)) :
    ∃ i, c.clampArray n len = .ok i := by
  have hw := s.width len
  unfold Ctx.clampArray
  split
  · exact absurd (by assumption) (s.null len)
  · rename_i b hcst
    rw [if_pos (by omega), readUnsigned_eq k hcst (by omega) hs]
    apply clampLiteral_total s
    have hb := k.bits len
    rcases hw with hw | hw | hw | hw
    · rw [hw] at hb; left; omega
    · rw [hw] at hb; left; omega
    · rw [hw] at hb; left; omega
    · exact .inr hw.2
  · exact ⟨_, rfl⟩

theorem clampFrom_total {c e is S defs loc base fuel rank} (k : Known c e) (s : Supported c e is)
    (inv : Inv c e S defs loc) (hr : Ranked defs rank) (hf : rank base + 1 < fuel) (hS : S base) :
    ∀ (todo : List Ix) (t : Ty) (done : List Ix) (dv : List Int) (tf : Ty),
    Part c e S loc base t done dv → (∀ x ∈ todo, ∃ n, x = .id n) →
    typeAt t (todo.map (value c e)) = some tf →
    (∀ pre x post ts, todo = pre ++ x :: post → typeAt t (pre.map (value c e)) = some (.struct ts) →
      ∃ n b, x = .id n ∧ c.const n = some (.lit b)) →
    ∃ out, c.clampFrom defs fuel base t done todo = .ok out
  | [], t, done, dv, tf, P, _, ht, hm => ⟨_, rfl⟩
  | x :: rest, t, done, dv, tf, P, hid, ht, hm => by
    obtain ⟨n, rfl⟩ := hid x (by simp)
    have hid' : ∀ x ∈ rest, ∃ n, x = .id n := fun x hx => hid x (by simp [hx])
    have hfull : typeAt (c.pointee (loc base).root) ((loc base).path ++ dv) = some t := by
      rw [typeAt_append, inv.type base hS]; exact P.type
    have valid := inv.valid base hS
    have hm' : ∀ elem, typeAt t [value c e (.id n)] = some elem → ∀ pre x post ts,
        rest = pre ++ x :: post → typeAt elem (pre.map (value c e)) = some (.struct ts) →
        ∃ n b, x = .id n ∧ c.const n = some (.lit b) := by
      intro elem he pre x post ts h1 h2
      refine hm (.id n :: pre) x post ts (by rw [h1]; rfl) ?_
      have := typeAt_append t [value c e (.id n)] (pre.map (value c e))
      rw [he] at this
      simpa [h2] using this
    -- one index is clamped to an element type
    have key : ∀ (count : Nat) (elem : Ty) (i : Ix), Uses S i → Good c e loc n count i →
        (∀ v, typeAt t [v] = some elem) → (∀ i, c.typeOf t [i] = some elem) →
        (∀ v, InBoundsFrom e (loc base).root ((loc base).path ++ dv) t [v] ↔ 0 ≤ v ∧ v < count) →
        ∃ out, c.clampFrom defs fuel base elem (done ++ [i]) rest = .ok out := by
      intro count elem i hu hg h1 h2 h3
      obtain ⟨v, hv, g1, g2, g3⟩ := hg
      have P' := P.snoc inv hS hu hv (h1 _) (h2 _) ((h3 _).mpr ⟨g1, g2⟩)
      have ht' : typeAt elem (rest.map (value c e)) = some tf := by
        have := typeAt_append t [value c e (.id n)] (rest.map (value c e))
        rw [h1] at this
        simp only [List.map_cons] at ht
        rw [← ht]; simpa using this.symm
      exact clampFrom_total k s inv hr hf hS rest elem _ _ tf P' hid' ht' (hm' elem (h1 _))
    cases t with
    | scalar => simp [typeAt] at ht
    | fixed count elem =>
      simp only [Ctx.clampFrom]
      have hlt : count < 2 ^ 32 := s.fixed base dv _ _ P.type
      obtain ⟨i, hi⟩ := clampLiteral_total (n := n) s (count := count) (.inl (by omega))
      simp only [hi, bind, Except.bind]
      exact key count elem i (clampLiteral_uses S hi)
          (clampLiteral_good k (valid.fixed _ _ _ hfull) hi) (by simp [typeAt])
          (by simp [Ctx.typeOf]) (by simp [InBoundsFrom])
    | array len elem =>
      simp only [Ctx.clampFrom]
      have hv := valid.array _ _ _ hfull
      obtain ⟨i, hi⟩ := clampArray_total (n := n) (len := len) k s hv.2
      simp only [hi, bind, Except.bind]
      exact key (e.val len) elem i (clampArray_uses S hi)
          (clampArray_good k hv.1 hv.2 hi) (by simp [typeAt])
          (by simp [Ctx.typeOf]) (by simp [InBoundsFrom])
    | runtime elem =>
      simp only [Ctx.clampFrom]
      obtain ⟨i, hi⟩ := arrayLength_total (n := n) inv hr hf hS P
      simp only [hi, bind, Except.bind]
      obtain ⟨hu, hev⟩ := arrayLength_sound k inv hS P hi
      have hrt := k.runtime (loc base).root ((loc base).path ++ dv)
      exact key _ elem _ (clampDynamic_uses hu)
          (clampDynamic_good k (by omega) hrt.1 hrt.2 hev) (by simp [typeAt])
          (by simp [Ctx.typeOf]) (by simp [InBoundsFrom])
    | struct ts =>
      obtain ⟨n', b, hn', hcst⟩ := hm [] (.id n) rest ts rfl (by simp [typeAt])
      cases hn'
      simp only [Ctx.clampFrom, hcst]
      rw [readSigned_eq k hcst]
      simp only [List.map_cons, typeAt, value] at ht
      split at ht
      · cases ht
      · rename_i hneg
        split at ht
        · rename_i t1 ht1
          rw [if_neg hneg]
          simp only [ht1]
          have hlt : (V.signed ⟨c.width n, e.val n⟩).toNat < ts.length := by
            rw [List.getElem?_eq_some_iff] at ht1
            exact ht1.1
          have hix := indexForType_eq k hcst (m := ts.length) (by omega) (by omega)
            (by have := valid.struct _ _ hfull; omega)
          have P' := P.snoc inv hS (i := .id n) (v := ⟨c.width n, e.val n⟩) (t' := t1)
            (by simp [Uses]) (by simp [eval]) (by simp [typeAt, hneg, ht1])
            (by simp [Ctx.typeOf, hix, ht1]) ⟨by omega, t1, ht1, by simp [InBoundsFrom]⟩
          exact clampFrom_total k s inv hr hf hS rest t1 _ _ tf P' hid' ht
            (hm' t1 (by simp [typeAt, value, hneg, ht1]))
        · cases ht

theorem ranked_setDef {defs rank id base idx idx'} (h : Ranked defs rank)
    (hd : defs id = .chain base idx) : Ranked (setDef defs id (.chain base idx')) rank := by
  intro p
  have h1 := h p
  by_cases hp : p = id
  · subst hp
    simp only [hd] at h1
    simp [setDef, h1]
  · simpa [setDef, hp] using h1

theorem process_total {c e is0 fuel rank} (k : Known c e) (s : Supported c e is0)
    (hb : ∀ p, rank p + 1 < fuel) :
    ∀ (is : List PInst) (defs : Nat → PDef) (loc : Nat → Loc), (∀ i ∈ is, i ∈ is0) →
    Inv c e (Settled is) defs loc → Ranked defs rank → Ordered is → (∀ i ∈ is, WellTyped c e i) →
    (∀ i ∈ is, defs i.id = i.defn) →
    (∀ i ∈ is, i.defn = .other → ValidType c e (c.pointee i.id)) →
    (∀ i ∈ is, loc i.id = ⟨i.id, []⟩) →
    ∃ out, c.process fuel defs is = .ok out
  | [], _, _, _, _, _, _, _, _, _, _ => ⟨_, rfl⟩
  | ⟨id, d⟩ :: rest, defs, loc, hsub, inv, hr, ord, typed, hdefs, hvalid, hfresh => by
    obtain ⟨ord1, ord2, ord3⟩ := ord
    have hnS : ¬ Settled (⟨id, d⟩ :: rest) id := by simp [Settled]
    have hS1 : ∀ p, Settled (⟨id, d⟩ :: rest) p → Settled rest p := fun p hp => (settled_cons.mp hp).2
    have hS2 : ∀ p, Settled rest p → Settled (⟨id, d⟩ :: rest) p ∨ p = id := fun p hp => by
      by_cases h : p = id
      · exact .inr h
      · exact .inl (settled_cons.mpr ⟨h, hp⟩)
    have wt := typed ⟨id, d⟩ (by simp)
    have typed' : ∀ i ∈ rest, WellTyped c e i := fun i hi => typed i (by simp [hi])
    have hvalid' : ∀ i ∈ rest, i.defn = .other → ValidType c e (c.pointee i.id) :=
      fun i hi => hvalid i (by simp [hi])
    have hsub' : ∀ i ∈ rest, i ∈ is0 := fun i hi => hsub i (by simp [hi])
    have hdd := hdefs ⟨id, d⟩ (by simp)
    simp only at hdd
    cases d with
    | chain base idx =>
      simp only [WellTyped] at wt
      have hbase := ord2 base (by simp [PInst.uses])
      have hSb : Settled (⟨id, .chain base idx⟩ :: rest) base := by
        rw [settled_cons]; exact ⟨hbase.1, hbase.2⟩
      have P0 : Part c e (Settled (⟨id, .chain base idx⟩ :: rest)) loc base (c.pointee base) [] [] :=
        ⟨trivial, by simp [evalList], by simp [typeAt], by simpa using inv.bounds base hSb,
          fun k => by simp [Ctx.typeOf, typeAt]⟩
      obtain ⟨idx', hc⟩ := clampFrom_total k s inv hr (hb base) hSb idx _ [] [] _ P0 wt.1 wt.2
        (fun pre x post ts h1 h2 => s.member _ (hsub _ (List.mem_cons_self ..)) base pre x post ts
          (by rw [← h1]) h2)
      obtain ⟨vs, P, _, _⟩ := clampFrom_sound k inv hSb idx _ [] [] _ idx' P0 wt.1 wt.2 hc
      have inv' := inv.extend (S' := Settled rest) (l := ⟨(loc base).root, (loc base).path ++ vs⟩)
        (d := .chain base idx') hnS hS1 hS2
        ⟨hSb, P.uses, vs, P.eval, rfl, P.same⟩
        (by rw [typeAt_append, inv.type base hSb]; exact P.type) P.bounds (inv.valid base hSb)
      have hne : ∀ i ∈ rest, i.id ≠ id := ord1
      obtain ⟨out, ho⟩ := process_total k s hb rest _ _ hsub' inv' (ranked_setDef hr hdd) ord3 typed'
        (fun i hi => by simp [setDef, hne i hi]; exact hdefs i (by simp [hi])) hvalid'
        (fun i hi => by simp [setLoc, hne i hi]; exact hfresh i (by simp [hi]))
      simp [Ctx.process, hc, ho, bind, Except.bind, pure, Except.pure]
    | copy src =>
      simp only [WellTyped] at wt
      have hsrc := ord2 src (by simp [PInst.uses])
      have hSs : Settled (⟨id, .copy src⟩ :: rest) src := by
        rw [settled_cons]; exact ⟨hsrc.1, hsrc.2⟩
      have inv' := inv.extend (S' := Settled rest) (l := loc src)
        (d := .copy src) hnS hS1 hS2 ⟨hSs, rfl⟩
        (by rw [wt]; exact inv.type src hSs) (inv.bounds src hSs) (inv.valid src hSs)
      rw [← hdd, setDef_self] at inv'
      obtain ⟨out, ho⟩ := process_total k s hb rest _ _ hsub' inv' hr ord3 typed'
        (fun i hi => hdefs i (by simp [hi])) hvalid'
        (fun i hi => by simp [setLoc, ord1 i hi]; exact hfresh i (by simp [hi]))
      simp [Ctx.process, ho, bind, Except.bind, pure, Except.pure]
    | other =>
      have hf := hfresh ⟨id, .other⟩ (by simp)
      simp only at hf
      have inv' := inv.extend (S' := Settled rest) (l := ⟨id, []⟩)
        (d := .other) hnS hS1 hS2 rfl (by simp [typeAt]) (by simp [InBounds, InBoundsFrom])
        (hvalid ⟨id, .other⟩ (by simp) rfl)
      rw [← hdd, setDef_self, ← hf, setLoc_self] at inv'
      obtain ⟨out, ho⟩ := process_total k s hb rest _ _ hsub' inv' hr ord3 typed'
        (fun i hi => hdefs i (by simp [hi])) hvalid' (fun i hi => hfresh i (by simp [hi]))
      simp [Ctx.process, ho, bind, Except.bind, pure, Except.pure]

theorem exists_rank : ∀ {is : List PInst}, Ordered is →
    ∃ rank, Ranked (defsOf is) rank ∧ (∀ p, rank p ≤ is.length) ∧ (∀ p, Settled is p → rank p = 0)
  | [], _ => ⟨fun _ => 0, fun p => by simp [defsOf], by simp, by simp⟩
  | i :: rest, ord => by
    obtain ⟨rank, h1, h2, h3⟩ := exists_rank ord.2.2
    have hi : rank i.id = 0 := h3 _ ord.1
    refine ⟨fun p => if p = i.id then 1 else if rank p = 0 then 0 else rank p + 1, ?_, ?_, ?_⟩
    · intro p
      by_cases hp : p = i.id
      · subst hp
        have hu := ord.2.1
        simp only [defsOf, setDef, if_true]
        cases hd : i.defn with
        | chain b idx =>
          have := hu b (by simp [PInst.uses, hd])
          simp [this.1, h3 b this.2]
        | copy src =>
          have := hu src (by simp [PInst.uses, hd])
          simp [this.1, h3 src this.2]
        | other => trivial
      · have := h1 p
        simp only [defsOf, setDef, hp, if_false]
        cases hd : defsOf rest p with
        | chain b idx => simp only [hd] at this ⊢; repeat' split
                         all_goals omega
        | copy src => simp only [hd] at this ⊢; repeat' split
                      all_goals omega
        | other => trivial
    · intro p
      have := h2 p
      simp only [List.length_cons]
      repeat' split
      all_goals omega
    · intro p hp
      have := settled_cons.mp hp
      simp [this.1, h3 p this.2]

theorem run_total {c e fuel is} (f : Fits c e is) (s : Supported c e is) (hf : is.length + 1 < fuel) :
    ∃ out, c.run fuel is = .ok out := by
  obtain ⟨rank, hr, hb, _⟩ := exists_rank f.ordered
  have hdist : ∀ i ∈ is, i.defn = .other → ∀ j ∈ is, j.id = i.id → j.defn = .other := by
    intro i hi hio j hj heq
    rw [← defsOf_mem f.ordered j hj, heq, defsOf_mem f.ordered i hi, hio]
  refine process_total f.known s (rank := rank) (fun p => by have := hb p; omega) is (defsOf is) start
    (fun i hi => hi) ?_ hr f.ordered f.typed
    (defsOf_mem f.ordered) (fun i hi hio => f.types _ (hdist i hi hio)) (fun i hi => rfl)
  refine ⟨fun p hp => by rw [defsOf_not hp]; rfl, fun p hp => by simp [start, typeAt],
    fun p hp => by simp [start, InBounds, InBoundsFrom], fun p hp => f.types _ ?_⟩
  intro i hi heq
  exact absurd heq (hp i hi)

end Verif.Robust
