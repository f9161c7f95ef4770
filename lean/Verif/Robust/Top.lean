import Verif.Robust.Paths

set_option linter.unusedSimpArgs false
set_option linter.unusedVariables false

namespace Verif.Robust

open Spec

theorem arrayLength_sound {c e S defs loc base el done dv n fuel len} (k : Known c e)
    (inv : Inv c e S defs loc) (hS : S base) (P : Part c e S loc base (.runtime el) done dv)
    (h : c.arrayLength defs fuel base (done ++ [.id n]) = .ok len) :
    Uses S len ∧ eval c e loc len =
      some ⟨32, e.runtime (loc base).root ((loc base).path ++ dv)⟩ := by
  unfold Ctx.arrayLength at h
  split at h
  · cases h
  · rename_i b is hun
    have hd : DefOk c e S loc ⟨(loc base).root, (loc base).path ++ (dv ++ [V.signed ⟨c.width n, e.val n⟩])⟩
        (.chain base (done ++ [.id n])) :=
      ⟨hS, usesList_append.mpr ⟨P.uses, by simp [UsesList, Uses]⟩, _,
        evalList_snoc P.eval (v := ⟨c.width n, e.val n⟩) (by simp [eval]), rfl,
        sameTypes_snoc (evalList_length P.eval) P.same P.type (by simp [Ctx.typeOf, typeAt])⟩
    obtain ⟨hb, hU, vs, drop, hvs, hroot, hpath, hlen, hty⟩ := unwind_sound inv fuel _ _ 2 b is hd hun
    simp only at hroot hpath
    have hrt : typeAt (c.pointee (loc base).root) ((loc base).path ++ dv) = some (.runtime el) := by
      rw [typeAt_append, inv.type base hS]; exact P.type
    obtain ⟨q, ts, hq, hts⟩ := (inv.valid base hS).runtime _ _ hrt
    obtain ⟨d0, d1, rfl⟩ : ∃ d0 d1, drop = [d0, d1] := by
      match drop, hlen with
      | [a, b], _ => exact ⟨a, b, rfl⟩
    have e1 : ((loc b).path ++ vs ++ [d0]) ++ [d1] =
        ((loc base).path ++ dv) ++ [V.signed ⟨c.width n, e.val n⟩] := by simpa using hpath
    have e2 := (List.append_inj' e1 rfl).1
    have e3 := List.append_inj' (e2.trans hq) rfl
    have e4 : d0 = (ts.length : Int) - 1 := by simpa using e3.2
    have hts' : typeAt (c.pointee b) vs = some (.struct ts) := by
      have := hts
      rw [← e3.1, typeAt_append, ← hroot, inv.type b hb] at this
      exact this
    rw [hty, hts'] at h
    simp only [Except.ok.injEq] at h
    subst h
    have hpos : 0 < ts.length := by
      have := hrt
      rw [hq, typeAt_append, hts] at this
      simp only [Option.bind_some, typeAt] at this
      split at this
      · cases this
      · rename_i hn
        omega
    refine ⟨⟨hb, hU⟩, ?_⟩
    have e5 : ((loc b).path ++ vs ++ [((ts.length - 1 : Nat) : Int)]) = (loc base).path ++ dv := by
      rw [hq, e3.1]; congr 2; omega
    simp only [eval, hvs, hroot]
    have := k.runtime (loc base).root ((loc base).path ++ dv)
    simp [e5]
    rw [← List.append_assoc, e5, wrap_nat this.2]
  
theorem clampFrom_sound {c e S defs loc base fuel} (k : Known c e)
    (inv : Inv c e S defs loc) (hS : S base) :
    ∀ (todo : List Ix) (t : Ty) (done : List Ix) (dv : List Int) (tf : Ty) (out : List Ix),
    Part c e S loc base t done dv → (∀ x ∈ todo, ∃ n, x = .id n) →
    typeAt t (todo.map (value c e)) = some tf →
    c.clampFrom defs fuel base t done todo = .ok out →
    ∃ vs, Part c e S loc base tf out vs ∧ out.length = done.length + todo.length ∧
      (InBoundsFrom e (loc base).root ((loc base).path ++ dv) t (todo.map (value c e)) →
        vs = dv ++ todo.map (value c e))
  | [], t, done, dv, tf, out, P, _, ht, h => by
    simp only [Ctx.clampFrom, Except.ok.injEq] at h
    subst h
    simp [typeAt] at ht
    subst ht
    exact ⟨dv, P, by simp, by simp⟩
  | x :: rest, t, done, dv, tf, out, P, hid, ht, h => by
    obtain ⟨n, rfl⟩ := hid x (by simp)
    have hid' : ∀ x ∈ rest, ∃ n, x = .id n := fun x hx => hid x (by simp [hx])
    have hfull : typeAt (c.pointee (loc base).root) ((loc base).path ++ dv) = some t := by
      rw [typeAt_append, inv.type base hS]; exact P.type
    have valid := inv.valid base hS
    -- one index is clamped to an element type
    have key : ∀ (count : Nat) (elem : Ty) (i : Ix), Uses S i → Good c e loc n count i →
        (∀ v, typeAt t [v] = some elem) → (∀ i, c.typeOf t [i] = some elem) →
        (∀ v, InBoundsFrom e (loc base).root ((loc base).path ++ dv) t [v] ↔ 0 ≤ v ∧ v < count) →
        c.clampFrom defs fuel base elem (done ++ [i]) rest = .ok out →
        ∃ vs, Part c e S loc base tf out vs ∧ out.length = done.length + (.id n :: rest).length ∧
          (InBoundsFrom e (loc base).root ((loc base).path ++ dv) t ((.id n :: rest).map (value c e)) →
            vs = dv ++ (.id n :: rest).map (value c e)) := by
      intro count elem i hu hg h1 h2 h3 h4
      obtain ⟨v, hv, g1, g2, g3⟩ := hg
      have P' := P.snoc inv hS hu hv (h1 _) (h2 _) ((h3 _).mpr ⟨g1, g2⟩)
      have ht' : typeAt elem (rest.map (value c e)) = some tf := by
        have := typeAt_append t [value c e (.id n)] (rest.map (value c e))
        rw [h1] at this
        simp only [List.map_cons] at ht
        rw [← ht]; simpa using this.symm
      obtain ⟨vs, r1, r2, r3⟩ := clampFrom_sound k inv hS rest elem _ _ tf out P' hid' ht' h4
      refine ⟨vs, r1, by simp [r2]; omega, fun hin => ?_⟩
      have hin' := (inBounds_append e (loc base).root ((loc base).path ++ dv) t
        [value c e (.id n)] (rest.map (value c e)) (h1 _)).mp (by simpa using hin)
      have h5 := (h3 _).mp hin'.1
      have h6 := g3 (by simpa [value] using h5.1) (by simpa [value] using h5.2)
      have h7 : v.signed = value c e (.id n) := by simpa [value] using h6
      rw [h7] at r3
      rw [r3 (by simpa using hin'.2)]
      simp
    cases t with
    | scalar => simp [typeAt] at ht
    | fixed count elem =>
      simp only [Ctx.clampFrom] at h
      cases hi : c.clampLiteral n count with
      | error x => simp [hi, bind, Except.bind] at h
      | ok i =>
        simp [hi, bind, Except.bind] at h
        exact key count elem i (clampLiteral_uses S hi)
          (clampLiteral_good k (valid.fixed _ _ _ hfull) hi) (by simp [typeAt])
          (by simp [Ctx.typeOf]) (by simp [InBoundsFrom]) h
    | array len elem =>
      simp only [Ctx.clampFrom] at h
      cases hi : c.clampArray n len with
      | error x => simp [hi, bind, Except.bind] at h
      | ok i =>
        simp [hi, bind, Except.bind] at h
        have hv := valid.array _ _ _ hfull
        exact key (e.val len) elem i (clampArray_uses S hi)
          (clampArray_good k hv.1 hv.2 hi) (by simp [typeAt])
          (by simp [Ctx.typeOf]) (by simp [InBoundsFrom]) h
    | runtime elem =>
      simp only [Ctx.clampFrom] at h
      cases hi : c.arrayLength defs fuel base (done ++ [.id n]) with
      | error x => simp [hi, bind, Except.bind] at h
      | ok i =>
        simp [hi, bind, Except.bind] at h
        obtain ⟨hu, hev⟩ := arrayLength_sound k inv hS P hi
        have hr := k.runtime (loc base).root ((loc base).path ++ dv)
        exact key _ elem _ (clampDynamic_uses hu)
          (clampDynamic_good k (by omega) hr.1 hr.2 hev) (by simp [typeAt])
          (by simp [Ctx.typeOf]) (by simp [InBoundsFrom]) h
    | struct ts =>
      simp only [Ctx.clampFrom] at h
      split at h
      · rename_i b hcst
        rw [readSigned_eq k hcst] at h
        split at h
        · cases h
        · rename_i hneg
          split at h
          · rename_i t1 ht1
            have hlt : (V.signed ⟨c.width n, e.val n⟩).toNat < ts.length := by
              rw [List.getElem?_eq_some_iff] at ht1
              exact ht1.1
            have hix := indexForType_eq k hcst (m := ts.length) (by omega) (by omega)
              (by have := valid.struct _ _ hfull; omega)
            have P' := P.snoc inv hS (i := .id n) (v := ⟨c.width n, e.val n⟩) (t' := t1)
              (by simp [Uses]) (by simp [eval]) (by simp [typeAt, hneg, ht1])
              (by simp [Ctx.typeOf, hix, ht1]) ⟨by omega, t1, ht1, by simp [InBoundsFrom]⟩
            have ht' : typeAt t1 (rest.map (value c e)) = some tf := by
              simpa [typeAt, value, hneg, ht1] using ht
            obtain ⟨vs, r1, r2, r3⟩ := clampFrom_sound k inv hS rest t1 _ _ tf out P' hid' ht' h
            refine ⟨vs, r1, by simp [r2]; omega, fun hin => ?_⟩
            simp only [List.map_cons, value, InBoundsFrom, ht1, Option.some.injEq,
              exists_eq_left'] at hin
            rw [r3 (by simpa using hin.2)]
            simp [value]
          · cases h
      · cases h

end Verif.Robust
