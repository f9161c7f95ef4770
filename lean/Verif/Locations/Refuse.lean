import Verif.Locations.Walk

/-! Helper lemmas for C69: what is accepted has locations where they are needed. -/

set_option linter.unusedSimpArgs false
set_option linter.unusedVariables false

namespace Verif.Locations
open Spec

mutual
theorem numLocs_holds : ∀ (t : Ty), t.numLocs.1 = true → Holds t
  | .scalar _, _ => by simp [Holds]
  | .vec _ _, _ => by simp [Holds]
  | .mat _ _ _, _ => by simp [Holds]
  | .arr _ _, _ => by simp [Holds]
  | .psb, _ => by simp [Holds]
  | .rarr _, h => by simp [Ty.numLocs] at h
  | .other, h => by simp [Ty.numLocs] at h
  | .struct decs ms, h => by
    simp only [Ty.numLocs] at h
    by_cases hd : (decs.any (·.2.isLocation)) = true
    · rw [if_pos hd] at h; simp at h
    · rw [if_neg hd] at h
      simp only [Holds]
      exact ⟨by simpa using hd, numLocsList_holds ms 0 h⟩
theorem numLocsList_holds : ∀ (ts : List Ty) (acc : Nat), (numLocsList ts acc).1 = true → HoldsList ts
  | [], _, _ => by simp [HoldsList]
  | t :: ts, acc, h => by
    simp only [numLocsList] at h
    by_cases ht : t.numLocs.1 = true
    · rw [if_pos ht] at h
      simp only [HoldsList]
      exact ⟨numLocs_holds t ht, numLocsList_holds ts _ h⟩
    · rw [if_neg ht] at h; simp at h
end

theorem markMembers_ok {k : Key} {ds : List (Option Nat × Dec)} {ls cs : List (Option Nat × Nat)}
    (hls : ∀ i, ls.lookup (some i) = memberLocation ds i) : ∀ (ms : List Ty) (i : Nat) (st st' : Sets),
    markMembers k ls cs ms i st = .ok st' →
    (∀ j, j < ms.length → (memberLocation ds (i + j)).isSome = true) ∧
    ∀ p ∈ membersPlaced k ds ms i, p.Holds
  | [], i, st, st', _ => by simp [membersPlaced]
  | t :: ts, i, st, st', h => by
    simp only [markMembers] at h
    rw [hls i] at h
    cases hl : memberLocation ds i with
    | none => rw [hl] at h; cases h
    | some loc =>
      rw [hl] at h
      simp only at h
      by_cases ht : t.numLocs.1 = true
      · rw [if_pos ht] at h
        cases hm : mark k (memberSlots t.isArr loc t.numLocs.2 t.numComps ((cs.lookup (some i)).getD 0)) st with
        | ok st1 =>
          rw [hm] at h
          obtain ⟨h1, h2⟩ := markMembers_ok hls ts (i + 1) st1 st' h
          constructor
          · intro j hj
            cases j with
            | zero => simp [hl]
            | succ j =>
              have := h1 j (by simpa using hj)
              rwa [show i + (j + 1) = i + 1 + j by omega]
          · intro p hp
            simp only [membersPlaced, hl, List.mem_cons] at hp
            rcases hp with rfl | hp
            · have := numLocs_holds t ht
              cases t <;> simpa [Placement.Holds] using this
            · exact h2 p hp
        | conflict s => rw [hm] at h; cases h
        | bad => rw [hm] at h; cases h
      · rw [if_neg ht] at h; cases h

theorem markVar_ok {k0 k1 : Key} {ty : Ty} {loc : Nat} {f : Found} {st st' : Sets} {k : Key} {l c : Nat}
    (h : markVar k0 k1 ty loc f st = .ok st') : (Placement.mk k ty l c false).Holds := by
  cases ty with
  | arr e len =>
    simp only [markVar] at h
    by_cases he : e.numLocs.1 = true
    · exact numLocs_holds e he
    · rw [if_neg he] at h; cases h
  | _ =>
    simp only [markVar] at h
    split at h
    · rename_i he; exact numLocs_holds _ he
    · cases h

theorem getLocations_ok {exec : Exec} {streams : Bool} {v : Var} {k0 k1 : Key} {st st' : Sets}
    (hc : v.cls = .input ∨ v.cls = .output) (h : getLocations exec v k0 k1 st = .ok st') :
    Located exec v ∧ ∀ p ∈ placed exec streams v, p.Holds := by
  unfold getLocations at h
  cases hs : scan (exec = .fragment) (v.cls = .output) v.ty v.decs {} with
  | bad => rw [hs] at h; cases h
  | conflict s => rw [hs] at h; cases h
  | ok o =>
    rw [hs] at h
    cases o with
    | none =>
      have := scan_none hs
      exact ⟨.inl this, by simp [placed, this]⟩
    | some f =>
      have S := scan_some hs
      simp only at h
      rw [carried_eq hc (by simpa using S.patch) (by simpa using S.perVertex)] at h
      have hloc : f.location.isSome = true ↔ (locationOf v.decs).isSome = true := by
        rcases S.location with ⟨a, b⟩ | ⟨n, a, b⟩
        · rw [a, locationOf_none b]
        · rw [b]
          cases hl : locationOf v.decs with
          | some m => simp
          | none =>
            exfalso
            simp only [locationOf, List.findSome?_eq_none_iff] at hl
            have := hl _ a
            simp at this
      by_cases hb : builtInStruct (carried exec v) = true
      · exact ⟨.inr (.inl hb), by simp [placed, hb]⟩
      · cases hl : locationOf v.decs with
        | some n =>
          rw [hl] at hloc
          obtain ⟨m, hm⟩ := Option.isSome_iff_exists.1 (hloc.2 rfl)
          refine ⟨.inr (.inr (.inl (by rw [hl]; rfl))), ?_⟩
          intro p hp
          have hp' : p = ⟨keyOf exec streams v (decide (.index 1 ∈ v.decs)), carried exec v, n,
              componentOf v.decs, false⟩ := by
            have hnb := S.noBuiltIn
            unfold placed at hp
            rw [if_neg (by simp only [hnb, false_or]; exact hb), hl] at hp
            simpa using hp
          rw [hp']
          unfold getRest at h
          generalize carried exec v = ty at h hb
          cases ty with
          | struct ds ms =>
            simp only [builtInStruct] at hb
            simp only [hm] at h
            rw [if_neg hb] at h
            exact markVar_ok h
          | _ => simp only [hm] at h; exact markVar_ok h
        | none =>
          rw [hl] at hloc
          have hm : f.location = none := by
            cases hf : f.location with
            | none => rfl
            | some m => rw [hf] at hloc; simp at hloc
          unfold getRest at h
          unfold Located placed
          generalize carried exec v = ty at h hb ⊢
          cases ty with
          | struct ds ms =>
            have hb' := hb
            simp only [builtInStruct] at hb
            simp only [hm] at h
            rw [if_neg hb] at h
            by_cases hk : (ds.any fun x => decide (x.2 = .block)) = true
            · rw [if_pos hk] at h
              cases hg : gather ds [] [] with
              | none => rw [hg] at h; cases h
              | some r =>
                obtain ⟨ls, cs⟩ := r
                rw [hg] at h
                simp only at h
                have hgs := gather_some hg
                have hm2 := markMembers_ok (fun i => by simpa using (hgs i).1) ms 0 st st' h
                refine ⟨.inr (.inr (.inr ⟨ds, ms, rfl, ?_, fun i hi => by simpa using hm2.1 i hi⟩)), ?_⟩
                · simp only [List.any_eq_true, decide_eq_true_eq] at hk
                  obtain ⟨x, hx, e⟩ := hk
                  exact ⟨x.1, by rw [← e]; exact hx⟩
                · intro p hp
                  have hnb := S.noBuiltIn
                  rw [if_neg (by simp only [hnb, false_or]; exact hb'), hl] at hp
                  simp only at hp
                  have key : ∀ (k k' : Key) (ms : List Ty) (i : Nat),
                      (∀ p ∈ membersPlaced k ds ms i, p.Holds) →
                      ∀ p ∈ membersPlaced k' ds ms i, p.Holds := by
                    intro k k' ms
                    induction ms with
                    | nil => intro i _ p hp; simp [membersPlaced] at hp
                    | cons t ts ih =>
                      intro i h p hp
                      simp only [membersPlaced] at h hp
                      cases hml : memberLocation ds i with
                      | none =>
                        rw [hml] at h hp
                        exact ih _ h p hp
                      | some l =>
                        rw [hml] at h hp
                        simp only [List.mem_cons] at h hp
                        rcases hp with rfl | hp
                        · have := h _ (.inl rfl)
                          unfold Placement.Holds at this ⊢
                          exact this
                        · exact ih _ (fun p hp => h p (.inr hp)) p hp
                  exact key _ _ ms 0 hm2.2 p hp
            · rw [if_neg hk] at h; cases h
          | _ => simp only [hm] at h; cases h

theorem oneVar_ok {exec : Exec} {streams : Bool} {v : Var} {st st' : Sets} (hc : v.cls = .input ∨ v.cls = .output)
    (h : oneVar exec streams v st = .ok st') : Located exec v ∧ ∀ p ∈ placedBy exec streams v, p.Holds := by
  have e : placedBy exec streams v = placed exec streams v := by
    rcases hc with hc | hc <;> simp [placedBy, hc]
  rw [e]
  unfold oneVar at h
  rcases hc with hc | hc
  all_goals
    rw [hc] at h
    simp only at h
    split at h
    · exact getLocations_ok (by simp [hc]) h
    · split at h
      · exact getLocations_ok (by simp [hc]) h
      · exact getLocations_ok (by simp [hc]) h

theorem loop_ok {exec : Exec} {streams : Bool} : ∀ (vs : List Var) (seen : List Nat) (st st' : Sets),
    loop exec streams vs seen st = .ok st' → ∀ v ∈ once vs seen, ∃ s s', oneVar exec streams v s = .ok s'
  | [], seen, st, st', _ => by simp [once]
  | v :: vs, seen, st, st', h => by
    simp only [loop] at h
    simp only [once]
    by_cases h1 : v.cls = .other
    · rw [if_pos h1] at h
      rw [if_pos (.inl h1)]
      exact loop_ok vs seen st st' h
    · rw [if_neg h1] at h
      by_cases h2 : v.id ∈ seen
      · rw [if_pos h2] at h
        rw [if_pos (.inr h2)]
        exact loop_ok vs seen st st' h
      · rw [if_neg h2] at h
        rw [if_neg (by simp [h1, h2])]
        cases ho : oneVar exec streams v st with
        | ok s1 =>
          rw [ho] at h
          intro w hw
          rcases List.mem_cons.1 hw with rfl | hw
          · exact ⟨st, s1, ho⟩
          · exact loop_ok vs _ s1 st' h w hw
        | conflict s => rw [ho] at h; cases h
        | bad => rw [ho] at h; cases h

end Verif.Locations
