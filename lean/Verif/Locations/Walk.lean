import Verif.Locations.Marks

/-! Helper lemmas for C69: the validator's loops over decorations, members and variables come to
marking the placements. -/

set_option linter.unusedSimpArgs false
set_option linter.unusedVariables false

namespace Verif.Locations
open Spec

/-- What the loop over the decorations finds. -/
structure Scanned (fr out : Bool) (ty : Ty) (ds : List Dec) (f g : Found) : Prop where
  noBuiltIn : .builtIn ∉ ds
  index : ∀ n, .index n ∈ ds → fr = true ∧ out = true
  patch : g.patch = (f.patch || decide (.patch ∈ ds))
  perVertex : g.perVertex = (f.perVertex || decide (.perVertex ∈ ds))
  location : (g.location = f.location ∧ ∀ n, .location n ∉ ds) ∨
    ∃ n, .location n ∈ ds ∧ g.location = some n
  component : (g.component = f.component ∧ ∀ n, .component n ∉ ds) ∨
    ∃ n, .component n ∈ ds ∧ g.component = n
  idx : (g.index = f.index ∧ ∀ n, .index n ∉ ds) ∨ ∃ n, .index n ∈ ds ∧ g.index = some n

theorem scan_some {fr out : Bool} {ty : Ty} : ∀ {ds : List Dec} {f g : Found},
    scan fr out ty ds f = .ok (some g) → Scanned fr out ty ds f g
  | [], f, g, h => by
    simp only [scan, Out.ok.injEq, Option.some.injEq] at h
    subst h
    constructor <;> simp
  | d :: ds, f, g, h => by
    have key : ∀ {f' : Found}, scan fr out ty ds f' = .ok (some g) → Scanned fr out ty ds f' g :=
      fun h => scan_some h
    cases d with
    | location n =>
      have s := key h
      refine ⟨by simp [s.noBuiltIn], by simpa using s.index, by simpa using s.patch,
        by simpa using s.perVertex, ?_, by simpa using s.component, by simpa using s.idx⟩
      rcases s.location with ⟨h1, h2⟩ | ⟨m, h1, h2⟩
      · exact .inr ⟨n, by simp, h1⟩
      · exact .inr ⟨m, by simp [h1], h2⟩
    | component n =>
      have s := key h
      refine ⟨by simp [s.noBuiltIn], by simpa using s.index, by simpa using s.patch,
        by simpa using s.perVertex, by simpa using s.location, ?_, by simpa using s.idx⟩
      rcases s.component with ⟨h1, h2⟩ | ⟨m, h1, h2⟩
      · exact .inr ⟨n, by simp, h1⟩
      · exact .inr ⟨m, by simp [h1], h2⟩
    | index n =>
      simp only [scan] at h
      split at h
      · cases h
      · rename_i hc
        have s := key h
        have hfo : fr = true ∧ out = true := by
          cases fr <;> cases out <;> simp_all
        refine ⟨by simp [s.noBuiltIn], fun _ _ => hfo, by simpa using s.patch,
          by simpa using s.perVertex, by simpa using s.location, by simpa using s.component, ?_⟩
        rcases s.idx with ⟨h1, h2⟩ | ⟨m, h1, h2⟩
        · exact .inr ⟨n, by simp, h1⟩
        · exact .inr ⟨m, by simp [h1], h2⟩
    | builtIn => simp [scan] at h
    | patch =>
      have s := key h
      exact ⟨by simp [s.noBuiltIn], by simpa using s.index, by simp [s.patch],
        by simpa using s.perVertex, by simpa using s.location, by simpa using s.component,
        by simpa using s.idx⟩
    | perTask =>
      have s := key h
      exact ⟨by simp [s.noBuiltIn], by simpa using s.index, by simpa using s.patch,
        by simpa using s.perVertex, by simpa using s.location, by simpa using s.component,
        by simpa using s.idx⟩
    | perVertex =>
      simp only [scan] at h
      split at h
      · cases h
      · split at h
        · cases h
        · have s := key h
          exact ⟨by simp [s.noBuiltIn], by simpa using s.index, by simpa using s.patch,
            by simp [s.perVertex], by simpa using s.location, by simpa using s.component,
            by simpa using s.idx⟩
    | stream n =>
      have s := key h
      exact ⟨by simp [s.noBuiltIn], by simpa using s.index, by simpa using s.patch,
        by simpa using s.perVertex, by simpa using s.location, by simpa using s.component,
        by simpa using s.idx⟩
    | block =>
      have s := key h
      exact ⟨by simp [s.noBuiltIn], by simpa using s.index, by simpa using s.patch,
        by simpa using s.perVertex, by simpa using s.location, by simpa using s.component,
        by simpa using s.idx⟩
    | other =>
      have s := key h
      exact ⟨by simp [s.noBuiltIn], by simpa using s.index, by simpa using s.patch,
        by simpa using s.perVertex, by simpa using s.location, by simpa using s.component,
        by simpa using s.idx⟩

theorem scan_none {fr out : Bool} {ty : Ty} : ∀ {ds : List Dec} {f : Found},
    scan fr out ty ds f = .ok none → .builtIn ∈ ds
  | [], f, h => by simp [scan] at h
  | d :: ds, f, h => by
    have key : ∀ {f' : Found}, scan fr out ty ds f' = .ok none → .builtIn ∈ ds := fun h => scan_none h
    cases d <;> simp only [scan] at h <;> (try split at h) <;> (try split at h) <;>
      first
      | exact List.mem_cons_self
      | exact List.mem_cons_of_mem _ (key h)
      | cases h

theorem scan_ne_conflict {fr out : Bool} {ty : Ty} : ∀ {ds : List Dec} {f : Found} {s : Nat},
    scan fr out ty ds f ≠ .conflict s
  | [], f, s, h => by simp [scan] at h
  | d :: ds, f, s, h => by
    have key : ∀ {f' : Found}, scan fr out ty ds f' = .conflict s → False :=
      fun h => scan_ne_conflict h
    cases d <;> simp only [scan] at h <;> (try split at h) <;> (try split at h) <;>
      first
      | exact key h
      | cases h

theorem scan_ne_bad {fr out : Bool} {ty : Ty} : ∀ {ds : List Dec} {f : Found},
    (∀ n, .index n ∈ ds → fr = true ∧ out = true) →
    (.perVertex ∈ ds → fr = true ∧ ty.isAnyArr = true) → scan fr out ty ds f ≠ .bad
  | [], f, _, _, h => by simp [scan] at h
  | d :: ds, f, h1, h2, h => by
    have key : ∀ {f' : Found}, scan fr out ty ds f' = .bad → False :=
      fun h => scan_ne_bad (fun n hn => h1 n (List.mem_cons_of_mem _ hn))
        (fun hn => h2 (List.mem_cons_of_mem _ hn)) h
    cases d with
    | index n =>
      obtain ⟨e1, e2⟩ := h1 n List.mem_cons_self
      simp only [scan, e1, e2, Bool.not_true, Bool.or_self] at h
      subst e1 e2; exact key h
    | perVertex =>
      obtain ⟨e1, e2⟩ := h2 List.mem_cons_self
      subst e1
      simp only [scan, e2, Bool.not_true] at h
      exact key h
    | builtIn => simp [scan] at h
    | _ => exact key h

theorem locationOf_none {ds : List Dec} (h : ∀ n, .location n ∉ ds) : locationOf ds = none := by
  simp only [locationOf, List.findSome?_eq_none_iff]
  intro d hd
  cases d <;> simp
  exact h _ hd

theorem locationOf_mem {ds : List Dec} {n : Nat} (h : locationOf ds = some n) : .location n ∈ ds := by
  obtain ⟨d, hd, he⟩ := List.exists_of_findSome?_eq_some h
  cases d <;> simp at he
  exact he ▸ hd

theorem locationOf_some {ds : List Dec} {n : Nat} (h : .location n ∈ ds)
    (ha : ∀ m n, .location m ∈ ds → .location n ∈ ds → m = n) : locationOf ds = some n := by
  cases e : locationOf ds with
  | none =>
    simp only [locationOf, List.findSome?_eq_none_iff] at e
    have := e _ h
    simp at this
  | some m => rw [ha m n (locationOf_mem e) h]

theorem componentOf_none {ds : List Dec} (h : ∀ n, .component n ∉ ds) : componentOf ds = 0 := by
  unfold componentOf
  rw [List.findSome?_eq_none_iff.2]
  · rfl
  · intro d hd
    cases d <;> simp
    exact h _ hd

theorem componentOf_some {ds : List Dec} {n : Nat} (h : .component n ∈ ds)
    (ha : ∀ m n, .component m ∈ ds → .component n ∈ ds → m = n) : componentOf ds = n := by
  simp only [componentOf]
  cases e : (ds.findSome? fun | .component n => some n | _ => none) with
  | none =>
    rw [List.findSome?_eq_none_iff] at e
    have := e _ h
    simp at this
  | some m =>
    obtain ⟨d, hd, he⟩ := List.exists_of_findSome?_eq_some e
    cases d <;> simp at he
    subst he
    exact ha _ _ hd h

theorem firstLocation_eq : ∀ (ds : List Dec), firstLocation ds = locationOf ds
  | [] => rfl
  | d :: ds => by
    have := firstLocation_eq ds
    cases d <;> simp_all [firstLocation, locationOf, List.findSome?_cons]

theorem firstStream_eq : ∀ (ds : List Dec), firstStream ds = streamOf ds
  | [] => rfl
  | d :: ds => by
    have := firstStream_eq ds
    cases d <;> simp_all [firstStream, streamOf, List.findSome?_cons]

/-! ### Members -/

theorem gather_some : ∀ {ds : List (Option Nat × Dec)} {ls cs ls' cs' : List (Option Nat × Nat)},
    gather ds ls cs = some (ls', cs') → ∀ i,
    ls'.lookup (some i) = (ls.lookup (some i)).or (memberLocation ds i) ∧
    (cs'.lookup (some i)).getD 0 = (cs.lookup (some i)).getD (memberComponent ds i)
  | [], ls, cs, ls', cs', h, i => by
    simp only [gather, Option.some.injEq, Prod.mk.injEq] at h
    obtain ⟨rfl, rfl⟩ := h
    simp [memberLocation, memberComponent]
  | (m, d) :: ds, ls, cs, ls', cs', h, i => by
    have ih : ∀ {a b : List (Option Nat × Nat)}, gather ds a b = some (ls', cs') → _ :=
      fun h => gather_some h i
    cases d with
    | location n =>
      have hc : memberComponent ((m, .location n) :: ds) i = memberComponent ds i := by
        simp [memberComponent, List.findSome?_cons]
      have hl : memberLocation ((m, .location n) :: ds) i =
          if m = some i then some n else memberLocation ds i := by
        cases m with
        | none => simp [memberLocation, List.findSome?_cons]
        | some j => by_cases hj : j = i <;> simp [memberLocation, List.findSome?_cons, hj]
      rw [hc, hl]
      simp only [gather] at h
      split at h
      · rename_i hlk
        obtain ⟨h1, h2⟩ := ih h
        refine ⟨?_, h2⟩
        rw [h1]
        by_cases hm : m = some i
        · subst hm; rw [hlk]; simp [List.lookup]
        · have : (some i == m) = false := by simpa using fun h => hm h.symm
          simp [List.lookup, this, hm]
      · rename_i n' hlk
        split at h
        · cases h
        · rename_i hn
          obtain ⟨h1, h2⟩ := ih h
          refine ⟨?_, h2⟩
          rw [h1]
          by_cases hm : m = some i
          · subst hm; rw [hlk]; simp
          · simp [hm]
    | component n =>
      have hl : memberLocation ((m, .component n) :: ds) i = memberLocation ds i := by
        simp [memberLocation, List.findSome?_cons]
      have hc : memberComponent ((m, .component n) :: ds) i =
          if m = some i then n else memberComponent ds i := by
        cases m with
        | none => simp [memberComponent, List.findSome?_cons]
        | some j => by_cases hj : j = i <;> simp [memberComponent, List.findSome?_cons, hj]
      rw [hc, hl]
      simp only [gather] at h
      split at h
      · rename_i hlk
        obtain ⟨h1, h2⟩ := ih h
        refine ⟨h1, ?_⟩
        rw [h2]
        by_cases hm : m = some i
        · subst hm; rw [hlk]; simp [List.lookup]
        · have : (some i == m) = false := by simpa using fun h => hm h.symm
          simp [List.lookup, this, hm]
      · rename_i n' hlk
        split at h
        · cases h
        · rename_i hn
          obtain ⟨h1, h2⟩ := ih h
          refine ⟨h1, ?_⟩
          rw [h2]
          by_cases hm : m = some i
          · subst hm; rw [hlk]; simp
          · simp [hm]
    | _ =>
      have hl : ∀ d, d.isLocation = false → memberLocation ((m, d) :: ds) i = memberLocation ds i := by
        intro d hd
        cases d <;> simp_all [memberLocation, List.findSome?_cons, Dec.isLocation]
      simpa [memberLocation, memberComponent, List.findSome?_cons] using ih h

theorem lookup_mem {l : List (Option Nat × Nat)} {m : Option Nat} {n : Nat}
    (h : l.lookup m = some n) : (m, n) ∈ l := by
  induction l with
  | nil => simp at h
  | cons p l ih =>
    obtain ⟨a, b⟩ := p
    simp only [List.lookup] at h
    split at h
    · rename_i he
      simp at he h
      simp [he, h]
    · exact List.mem_cons_of_mem _ (ih h)

theorem gather_ne_none : ∀ {ds : List (Option Nat × Dec)} {ls cs : List (Option Nat × Nat)},
    (∀ i m n, ((i, .location m) ∈ ds ∨ (i, m) ∈ ls) → ((i, .location n) ∈ ds ∨ (i, n) ∈ ls) → m = n) →
    (∀ i m n, ((i, .component m) ∈ ds ∨ (i, m) ∈ cs) →
      ((i, .component n) ∈ ds ∨ (i, n) ∈ cs) → m = n) →
    gather ds ls cs ≠ none
  | [], ls, cs, _, _, h => by simp [gather] at h
  | (k, d) :: ds, ls, cs, h1, h2, h => by
    cases d with
    | location n =>
      simp only [gather] at h
      split at h
      · refine gather_ne_none (ds := ds) ?_ ?_ h
        · intro i a b ha hb
          refine h1 i a b ?_ ?_
          · simp at ha ⊢; rcases ha with h | ⟨rfl, rfl⟩ | h <;> simp_all
          · simp at hb ⊢; rcases hb with h | ⟨rfl, rfl⟩ | h <;> simp_all
        · intro i a b ha hb
          exact h2 i a b (by simpa using ha) (by simpa using hb)
      · rename_i n' hl
        have : n' = n := h1 k n' n (.inr (lookup_mem hl)) (.inl List.mem_cons_self)
        rw [if_neg (by simpa using this)] at h
        refine gather_ne_none (ds := ds) ?_ ?_ h
        · intro i a b ha hb
          exact h1 i a b (ha.imp_left (List.mem_cons_of_mem _)) (hb.imp_left (List.mem_cons_of_mem _))
        · intro i a b ha hb
          exact h2 i a b (ha.imp_left (List.mem_cons_of_mem _)) (hb.imp_left (List.mem_cons_of_mem _))
    | component n =>
      simp only [gather] at h
      split at h
      · refine gather_ne_none (ds := ds) ?_ ?_ h
        · intro i a b ha hb
          exact h1 i a b (by simpa using ha) (by simpa using hb)
        · intro i a b ha hb
          refine h2 i a b ?_ ?_
          · simp at ha ⊢; rcases ha with h | ⟨rfl, rfl⟩ | h <;> simp_all
          · simp at hb ⊢; rcases hb with h | ⟨rfl, rfl⟩ | h <;> simp_all
      · rename_i n' hl
        have : n' = n := h2 k n' n (.inr (lookup_mem hl)) (.inl List.mem_cons_self)
        rw [if_neg (by simpa using this)] at h
        refine gather_ne_none (ds := ds) ?_ ?_ h
        · intro i a b ha hb
          exact h1 i a b (ha.imp_left (List.mem_cons_of_mem _)) (hb.imp_left (List.mem_cons_of_mem _))
        · intro i a b ha hb
          exact h2 i a b (ha.imp_left (List.mem_cons_of_mem _)) (hb.imp_left (List.mem_cons_of_mem _))
    | _ =>
      refine gather_ne_none (ds := ds) (ls := ls) (cs := cs) ?_ ?_ h
      · intro i a b ha hb
        exact h1 i a b (ha.imp_left (List.mem_cons_of_mem _)) (hb.imp_left (List.mem_cons_of_mem _))
      · intro i a b ha hb
        exact h2 i a b (ha.imp_left (List.mem_cons_of_mem _)) (hb.imp_left (List.mem_cons_of_mem _))

theorem markMembers_eq {k : Key} (hk : k ≠ .tile) {ds : List (Option Nat × Dec)}
    {ls cs : List (Option Nat × Nat)}
    (hls : ∀ i, ls.lookup (some i) = memberLocation ds i)
    (hcs : ∀ i, (cs.lookup (some i)).getD 0 = memberComponent ds i) :
    ∀ (ms : List Ty) (i : Nat) (st : Sets),
    markMembers k ls cs ms i st = .bad ∨
    markMembers k ls cs ms i st = markAll (membersPlaced k ds ms i) st
  | [], i, st => .inr rfl
  | t :: ts, i, st => by
    have ih := markMembers_eq hk hls hcs ts (i + 1)
    simp only [markMembers, membersPlaced]
    rw [hls i, hcs i]
    cases hl : memberLocation ds i with
    | none => exact .inl rfl
    | some loc =>
      simp only
      split
      · have e : slots ⟨k, t, loc, memberComponent ds i, true⟩ =
            memberSlots t.isArr loc t.numLocs.2 t.numComps (memberComponent ds i) := by
          simp [slots, hk]
        simp only [markAll, e]
        cases hm : mark k (memberSlots t.isArr loc t.numLocs.2 t.numComps (memberComponent ds i)) st with
        | ok st1 => exact ih st1
        | conflict s => exact .inr rfl
        | bad => exact .inl rfl
      · exact .inl rfl

/-- The members of a well decorated block are not turned down for want of a location. -/
theorem markMembers_ne_bad {k : Key} {ls cs : List (Option Nat × Nat)} :
    ∀ (ms : List Ty) (i : Nat) (st : Sets),
    (∀ j, j < ms.length → (ls.lookup (some (i + j))).isSome) → (∀ t ∈ ms, t.numLocs.1 = true) →
    markMembers k ls cs ms i st ≠ .bad
  | [], i, st, _, _ => by simp [markMembers]
  | t :: ts, i, st, h1, h2 => by
    have h0 := h1 0 (by simp)
    rw [Nat.add_zero] at h0
    obtain ⟨loc, hloc⟩ := Option.isSome_iff_exists.1 h0
    simp only [markMembers, hloc]
    rw [if_pos (h2 t List.mem_cons_self)]
    cases hm : mark k (memberSlots t.isArr loc t.numLocs.2 t.numComps ((cs.lookup (some i)).getD 0)) st with
    | ok st1 =>
      refine markMembers_ne_bad ts (i + 1) st1 ?_ (fun t ht => h2 t (List.mem_cons_of_mem _ ht))
      intro j hj
      have := h1 (j + 1) (by simpa using hj)
      rwa [show i + (j + 1) = i + 1 + j by omega] at this
    | conflict s => simp [Out.bind]
    | bad => exact absurd hm mark_ne_bad

/-! ### Variables -/

theorem markVar_eq {k0 k1 : Key} (h0 : k0 ≠ .tile) (h1 : k1 ≠ .tile) (ty : Ty) (loc : Nat) (f : Found)
    (st : Sets) : markVar k0 k1 ty loc f st = .bad ∨
    markVar k0 k1 ty loc f st =
      markAll [⟨if f.index = some 1 then k1 else k0, ty, loc, f.component, false⟩] st := by
  have hk : (if f.index = some 1 then k1 else k0) ≠ .tile := by split <;> assumption
  have hb : ∀ (o : Out Sets), o.bind (markAll []) = o := by intro o; cases o <;> rfl
  have main : ∀ (l : List Nat) (b : Bool),
      slots ⟨if f.index = some 1 then k1 else k0, ty, loc, f.component, false⟩ = l →
      ((if b = true then mark (if f.index = some 1 then k1 else k0) l st else .bad) = .bad ∨
       (if b = true then mark (if f.index = some 1 then k1 else k0) l st else .bad) =
        markAll [⟨if f.index = some 1 then k1 else k0, ty, loc, f.component, false⟩] st) := by
    intro l b hl
    cases b with
    | false => exact .inl rfl
    | true => exact .inr (by simp only [markAll, hl, if_true]; exact (hb _).symm)
  cases ty with
  | _ =>
    simp only [markVar]
    refine main _ _ ?_
    simp only [slots, if_neg hk, Bool.false_eq_true, if_false]

theorem carried_eq {exec : Exec} {v : Var} {f : Found} (hc : v.cls = .input ∨ v.cls = .output)
    (hp : f.patch = decide (.patch ∈ v.decs)) (hv : f.perVertex = decide (.perVertex ∈ v.decs)) :
    v.ty.unpack (isArrayed exec (v.cls = .output) f) = carried exec v := by
  have e : isArrayed exec (v.cls = .output) f = perVertex exec v := by
    rcases hc with h | h <;> cases exec <;> simp [isArrayed, perVertex, h, hp, hv]
  rw [e]
  unfold Ty.unpack carried
  cases v.ty <;> rfl

theorem getRest_eq {ty : Ty} {f : Found} {k0 k1 : Key} (h0 : k0 ≠ .tile) (h1 : k1 ≠ .tile)
    (st : Sets) : getRest ty f k0 k1 st = .bad ∨ getRest ty f k0 k1 st = markAll
      (if builtInStruct ty = true then [] else
        match f.location with
        | some l => [⟨if f.index = some 1 then k1 else k0, ty, l, f.component, false⟩]
        | none => match ty with
          | .struct ds ms => membersPlaced k0 ds ms 0
          | _ => []) st := by
  cases ty with
  | struct ds ms =>
    simp only [getRest]
    by_cases hb : (ds.any fun x => decide (x.2 = .builtIn)) = true
    · have hb' : builtInStruct (.struct ds ms) = true := hb
      rw [if_pos hb, if_pos hb']; exact .inr rfl
    · have hb' : ¬ builtInStruct (.struct ds ms) = true := hb
      rw [if_neg hb, if_neg hb']
      cases hl : f.location with
      | some l => exact markVar_eq h0 h1 _ _ _ _
      | none =>
        simp only
        split
        · cases hg : gather ds [] [] with
          | none => exact .inl rfl
          | some r =>
            obtain ⟨ls, cs⟩ := r
            have := gather_some hg
            simp only
            exact markMembers_eq h0 (fun i => by simpa using (this i).1)
              (fun i => by simpa using (this i).2) ms 0 st
        · exact .inl rfl
  | _ =>
    simp only [getRest, builtInStruct]
    cases hl : f.location with
    | some l => exact markVar_eq h0 h1 _ _ _ _
    | none => exact .inl rfl

theorem getLocations_eq {exec : Exec} {streams : Bool} {v : Var} {k0 k1 : Key}
    (hc : v.cls = .input ∨ v.cls = .output) (ha : Agree v) (h0 : k0 ≠ .tile) (h1 : k1 ≠ .tile)
    (e0 : k0 = keyOf exec streams v false)
    (e1 : (exec = .fragment ∧ v.cls = .output) → k1 = keyOf exec streams v true) (st : Sets) :
    getLocations exec v k0 k1 st = .bad ∨
    getLocations exec v k0 k1 st = markAll (placed exec streams v) st := by
  unfold getLocations
  cases hs : scan (exec = .fragment) (v.cls = .output) v.ty v.decs {} with
  | bad => exact .inl rfl
  | conflict s => exact absurd hs scan_ne_conflict
  | ok o =>
    cases o with
    | none => exact .inr (by simp [placed, scan_none hs, markAll])
    | some f =>
      have S := scan_some hs
      simp only
      rw [carried_eq hc (by simpa using S.patch) (by simpa using S.perVertex)]
      rcases getRest_eq (ty := carried exec v) (f := f) h0 h1 st with h | h
      · exact .inl h
      · right
        rw [h]
        congr 1
        have hl : f.location = locationOf v.decs := by
          rcases S.location with ⟨a, b⟩ | ⟨n, a, b⟩
          · rw [a, locationOf_none b]
          · rw [b, locationOf_some a ha.1]
        have hcm : f.component = componentOf v.decs := by
          rcases S.component with ⟨a, b⟩ | ⟨n, a, b⟩
          · rw [a, componentOf_none b]
          · rw [b, componentOf_some a ha.2.1]
        have hi : (if f.index = some 1 then k1 else k0) =
            keyOf exec streams v (decide (.index 1 ∈ v.decs)) := by
          rcases S.idx with ⟨a, b⟩ | ⟨n, a, b⟩
          · rw [a]; simp [b, e0]
          · have hfo := S.index n a
            simp only [decide_eq_true_eq] at hfo
            rw [b, e0, e1 hfo]
            by_cases hn : n = 1
            · subst hn; simp [a]
            · have : .index 1 ∉ v.decs := fun h => hn (ha.2.2 n 1 a h)
              simp [hn, this]
        have hnb := S.noBuiltIn
        rw [hl, hcm, hi]
        unfold placed
        by_cases hb : builtInStruct (carried exec v) = true
        · rw [if_pos hb, if_pos (.inr hb)]
        · rw [if_neg hb, if_neg (by simp only [hnb, false_or]; exact hb)]
          cases locationOf v.decs with
          | some l => rfl
          | none => subst e0; cases carried exec v <;> rfl

theorem oneVar_eq {exec : Exec} {streams : Bool} {v : Var} (ha : Agree v) (st : Sets) :
    oneVar exec streams v st = .bad ∨
    oneVar exec streams v st = markAll (placedBy exec streams v) st := by
  cases hc : v.cls with
  | other => exact .inr (by simp [oneVar, placedBy, hc, markAll])
  | tile =>
    right
    simp only [oneVar, placedBy, hc, firstLocation_eq]
    cases locationOf v.decs with
    | none => rfl
    | some l =>
      simp only [markAll, slots, if_true]
      cases mark Key.tile [4 * l] st <;> rfl
  | input =>
    have e : placedBy exec streams v = placed exec streams v := by simp [placedBy, hc]
    rw [e]
    simp only [oneVar, hc]
    by_cases hp : Dec.patch ∈ v.decs
    · rw [if_pos hp]
      exact getLocations_eq (.inl hc) ha (by simp) (by simp) (by simp [keyOf, hp])
        (by simp [keyOf, hp]) st
    · rw [if_neg hp]
      simp only [reduceCtorEq, decide_false, Bool.and_false, Bool.false_eq_true, if_false, if_true]
      exact getLocations_eq (.inl hc) ha (by simp) (by simp) (by simp [keyOf, hp, hc])
        (by simp [hc]) st
  | output =>
    have e : placedBy exec streams v = placed exec streams v := by simp [placedBy, hc]
    rw [e]
    simp only [oneVar, hc]
    by_cases hp : Dec.patch ∈ v.decs
    · rw [if_pos hp]
      exact getLocations_eq (.inr hc) ha (by simp) (by simp) (by simp [keyOf, hp])
        (by simp [keyOf, hp]) st
    · rw [if_neg hp]
      by_cases hg : exec = .geometry ∧ streams = true
      · rw [if_pos (by simp [hg])]
        exact getLocations_eq (.inr hc) ha (by simp) (by simp)
          (by simp [keyOf, hp, hc, hg, firstStream_eq]) (by simp [hg]) st
      · rw [if_neg (by simpa using hg)]
        simp only [reduceCtorEq, if_false]
        refine getLocations_eq (.inr hc) ha (by simp) (by simp) ?_ ?_ st
        · have : ¬ (exec = .geometry ∧ streams = true ∧ v.cls = .output) := fun h => hg ⟨h.1, h.2.1⟩
          unfold keyOf
          rw [if_neg hp, if_neg this, if_neg (by simp [hc])]
        · intro _
          have : ¬ (exec = .geometry ∧ streams = true ∧ v.cls = .output) := fun h => hg ⟨h.1, h.2.1⟩
          unfold keyOf
          rw [if_neg hp, if_neg this, if_neg (by simp [hc])]

theorem loop_eq {exec : Exec} {streams : Bool} : ∀ (vs : List Var) (seen : List Nat) (st : Sets),
    (∀ v ∈ vs, Agree v) →
    loop exec streams vs seen st = .bad ∨
    loop exec streams vs seen st = markAll ((once vs seen).flatMap (placedBy exec streams)) st
  | [], seen, st, _ => .inr rfl
  | v :: vs, seen, st, ha => by
    have ih := fun seen st => loop_eq (exec := exec) (streams := streams) vs seen st
      (fun w hw => ha w (List.mem_cons_of_mem _ hw))
    simp only [loop, once]
    by_cases h1 : v.cls = .other
    · simp only [h1, if_true, true_or]; exact ih seen st
    · by_cases h2 : v.id ∈ seen
      · simp only [h1, h2, if_true, if_false, or_true]; exact ih seen st
      · simp only [h1, h2, if_false, or_self, List.flatMap_cons, markAll_append]
        rcases oneVar_eq (exec := exec) (streams := streams) (ha v List.mem_cons_self) st with h | h
        · rw [h]; exact .inl rfl
        · rw [h]
          cases hm : markAll (placedBy exec streams v) st with
          | ok st1 => exact ih _ st1
          | conflict s => exact .inr rfl
          | bad => exact .inl rfl

theorem validate_eq (ep : Entry) (he : ep.exec ≠ .other) (ha : ∀ v ∈ ep.vars, Agree v) :
    ep.validate = .bad ∨
    ep.validate = (markAll (placements ep) (fun _ => [])).bind fun _ => .ok () := by
  simp only [Entry.validate, he, if_false]
  rcases loop_eq (exec := ep.exec) (streams := ep.streams) ep.vars [] (fun _ => []) ha with h | h
  · rw [h]; exact .inl rfl
  · rw [h]; exact .inr rfl

/-! ### Nothing else is wrong with well decorated variables -/

theorem getLocations_ne_bad {exec : Exec} {v : Var} {k0 k1 : Key} (streams : Bool)
    (hc : v.cls = .input ∨ v.cls = .output) (hp : Placed exec v)
    (hf : ∀ p ∈ placed exec streams v, Plain p.ty) (st : Sets) : getLocations exec v k0 k1 st ≠ .bad := by
  rcases hp with hp | ⟨hi, hv, hp⟩
  · rcases hc with h | h <;> rw [h] at hp <;> cases hp
  unfold getLocations
  cases hs : scan (exec = .fragment) (v.cls = .output) v.ty v.decs {} with
  | bad =>
    exact absurd hs (scan_ne_bad (by simpa using hi) (by simpa using hv))
  | conflict s => simp
  | ok o =>
    cases o with
    | none => simp
    | some f =>
      have S := scan_some hs
      simp only
      rw [carried_eq hc (by simpa using S.patch) (by simpa using S.perVertex)]
      have hmv : ∀ loc, Plain (carried exec v) → markVar k0 k1 (carried exec v) loc f st ≠ .bad := by
        intro loc hpl
        cases hty : carried exec v with
        | arr e len =>
          have : Plain (.arr e len) := hty ▸ hpl
          simp only [markVar, numLocs_plain e this.2]
          exact mark_ne_bad
        | _ =>
          rw [hty] at hpl
          simp only [markVar, numLocs_plain _ hpl]
          exact mark_ne_bad
      have hnb := S.noBuiltIn
      by_cases hbs : builtInStruct (carried exec v) = true
      · cases hty : carried exec v with
        | struct ds ms =>
          rw [hty] at hbs
          simp only [builtInStruct] at hbs
          simp [getRest, hbs]
        | _ => rw [hty] at hbs; simp [builtInStruct] at hbs
      · cases hl : locationOf v.decs with
        | some l =>
          have hpl : Plain (carried exec v) := by
            refine hf ⟨keyOf exec streams v (decide (.index 1 ∈ v.decs)), carried exec v, l,
              componentOf v.decs, false⟩ ?_
            simp [placed, hnb, hbs, hl]
          have : ∃ l', f.location = some l' := by
            rcases S.location with ⟨a, b⟩ | ⟨n, a, b⟩
            · exact absurd (locationOf_mem hl) (b l)
            · exact ⟨n, b⟩
          obtain ⟨l', hl'⟩ := this
          have := hmv l' hpl
          cases hty : carried exec v with
          | struct ds ms =>
            rw [hty] at this hbs
            have hbs' : ds.any (·.2 = .builtIn) = false := by
              simpa only [builtInStruct, Bool.not_eq_true] using hbs
            simp only [getRest, hbs', hl']
            exact this
          | _ => rw [hty] at this; simpa only [getRest, hl'] using this
        | none =>
          simp only [hnb, hbs, hl, Option.isSome_none, Bool.false_eq_true, false_or] at hp
          obtain ⟨ds, ms, hty, hb, hm, hd1, hd2⟩ := hp
          have hfl : f.location = none := by
            rcases S.location with ⟨a, b⟩ | ⟨n, a, b⟩
            · exact a
            · have hn : locationOf v.decs ≠ none := by
                simp only [locationOf, ne_eq, List.findSome?_eq_none_iff]
                intro h
                have := h _ a
                simp at this
              exact absurd hl hn
          rw [hty] at hbs
          have hbs' : ds.any (·.2 = .builtIn) = false := by
            simpa only [builtInStruct, Bool.not_eq_true] using hbs
          have hbl : ds.any (·.2 = .block) = true := by
            rw [List.any_eq_true]; exact ⟨_, hb, by simp⟩
          rw [hty]
          simp only [getRest, hbs', hfl, hbl, if_true, Bool.false_eq_true, if_false]
          cases hg : gather ds [] [] with
          | none =>
            refine absurd hg (gather_ne_none ?_ ?_)
            · intro i a b h1 h2
              exact hd1 i a b (by simpa using h1) (by simpa using h2)
            · intro i a b h1 h2
              exact hd2 i a b (by simpa using h1) (by simpa using h2)
          | some r =>
            obtain ⟨ls, cs⟩ := r
            have hgs := gather_some hg
            have hml : ∀ i, i < ms.length → (memberLocation ds i).isSome = true := by
              intro i hi
              obtain ⟨n, hn⟩ := hm i hi
              cases e : memberLocation ds i with
              | some _ => rfl
              | none =>
                simp only [memberLocation, List.findSome?_eq_none_iff] at e
                have := e _ hn
                simp at this
            simp only
            refine markMembers_ne_bad ms 0 st ?_ ?_
            · intro j hj
              rw [Nat.zero_add, (hgs j).1]
              simpa using hml j hj
            · have hpl : ∀ p ∈ membersPlaced (keyOf exec streams v false) ds ms 0, Plain p.ty := by
                intro p hp
                refine hf p ?_
                rw [← hty] at hbs
                simp [placed, hnb, hbs, hl, hty]
                simpa [hty, builtInStruct] using ⟨by simpa using hbs', hp⟩
              have gen : ∀ (ts : List Ty) (i : Nat),
                  (∀ j, j < ts.length → (memberLocation ds (i + j)).isSome = true) →
                  (∀ p ∈ membersPlaced (keyOf exec streams v false) ds ts i, Plain p.ty) →
                  ∀ t ∈ ts, t.numLocs.1 = true := by
                intro ts
                induction ts with
                | nil => intro _ _ _ t ht; cases ht
                | cons t ts ih =>
                  intro i h1 h2 u hu
                  have h10 := h1 0 (by simp)
                  rw [Nat.add_zero] at h10
                  obtain ⟨l, hl'⟩ := Option.isSome_iff_exists.1 h10
                  simp only [membersPlaced, hl'] at h2
                  rcases List.mem_cons.1 hu with rfl | hu
                  · rw [numLocs_plain _ (h2 _ List.mem_cons_self)]
                  · refine ih (i + 1) ?_ (fun p hp => h2 p (List.mem_cons_of_mem _ hp)) u hu
                    intro j hj
                    have := h1 (j + 1) (by simpa using hj)
                    rwa [show i + (j + 1) = i + 1 + j by omega] at this
              exact gen ms 0 (fun j hj => by rw [Nat.zero_add]; exact hml j hj) hpl

theorem loop_ne_bad {exec : Exec} {streams : Bool} : ∀ (vs : List Var) (seen : List Nat) (st : Sets),
    (∀ v ∈ vs, v.cls ≠ .other → Placed exec v) →
    (∀ p ∈ (once vs seen).flatMap (placedBy exec streams), Plain p.ty) →
    loop exec streams vs seen st ≠ .bad
  | [], seen, st, _, _ => by simp [loop]
  | v :: vs, seen, st, h1, h2 => by
    have ih := fun seen st => loop_ne_bad (exec := exec) (streams := streams) vs seen st
      (fun w hw => h1 w (List.mem_cons_of_mem _ hw))
    simp only [loop]
    simp only [once] at h2
    by_cases c1 : v.cls = .other
    · simp only [c1, if_true, true_or] at h2 ⊢; exact ih seen st h2
    · by_cases c2 : v.id ∈ seen
      · simp only [c1, c2, if_true, if_false, or_true] at h2 ⊢; exact ih seen st h2
      · simp only [c1, c2, if_false, or_self, List.flatMap_cons, List.mem_append] at h2 ⊢
        have hv : oneVar exec streams v st ≠ .bad := by
          have hp := h1 v List.mem_cons_self c1
          have hfl : ∀ p ∈ placedBy exec streams v, Plain p.ty := fun p hp => h2 p (.inl hp)
          cases hc : v.cls with
          | other => exact absurd hc c1
          | tile =>
            simp only [oneVar, hc]
            split
            · exact mark_ne_bad
            · simp
          | input =>
            have hfl' : ∀ p ∈ placed exec streams v, Plain p.ty := by simpa [placedBy, hc] using hfl
            simp only [oneVar, hc]
            split
            · exact getLocations_ne_bad streams (.inl hc) hp hfl' st
            · split
              · exact getLocations_ne_bad streams (.inl hc) hp hfl' st
              · exact getLocations_ne_bad streams (.inl hc) hp hfl' st
          | output =>
            have hfl' : ∀ p ∈ placed exec streams v, Plain p.ty := by simpa [placedBy, hc] using hfl
            simp only [oneVar, hc]
            split
            · exact getLocations_ne_bad streams (.inr hc) hp hfl' st
            · split
              · exact getLocations_ne_bad streams (.inr hc) hp hfl' st
              · exact getLocations_ne_bad streams (.inr hc) hp hfl' st
        cases hm : oneVar exec streams v st with
        | ok st1 => exact ih _ st1 (fun p hp => h2 p (.inr hp))
        | conflict s => simp [Out.bind]
        | bad => exact absurd hm hv

/-! ### Tile images -/

theorem keyOf_ne_tile (exec : Exec) (streams : Bool) (v : Var) (b : Bool) :
    keyOf exec streams v b ≠ .tile := by
  unfold keyOf
  split
  · simp
  · split
    · simp
    · split <;> simp

theorem membersPlaced_key {k : Key} {ds : List (Option Nat × Dec)} : ∀ (ms : List Ty) (i : Nat),
    ∀ p ∈ membersPlaced k ds ms i, p.key = k
  | [], i, p, h => by simp [membersPlaced] at h
  | t :: ts, i, p, h => by
    simp only [membersPlaced] at h
    split at h
    · rcases List.mem_cons.1 h with rfl | h
      · rfl
      · exact membersPlaced_key ts (i + 1) p h
    · exact membersPlaced_key ts (i + 1) p h

theorem tileOk (ep : Entry) : ∀ p ∈ placements ep, TileOk p := by
  intro p hp
  obtain ⟨v, _, hp⟩ := List.mem_flatMap.1 hp
  have hpl : p ∈ placed ep.exec ep.streams v → TileOk p := by
    intro h hk
    unfold placed at h
    split at h
    · cases h
    · split at h
      · simp at h; subst h; exact absurd hk (keyOf_ne_tile _ _ _ _)
      · split at h
        · rw [membersPlaced_key _ _ p h] at hk; exact absurd hk (keyOf_ne_tile _ _ _ _)
        · cases h
  unfold placedBy at hp
  split at hp
  · cases hp
  · split at hp
    · simp at hp; subst hp; exact fun _ => ⟨rfl, rfl⟩
    · cases hp
  · exact hpl hp

end Verif.Locations
