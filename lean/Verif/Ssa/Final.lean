import Verif.Ssa.Process

/-
# From the final state to a system of reaching definitions
-/

set_option linter.unusedSimpArgs false
set_option linter.unusedVariables false

namespace Verif.Ssa

/-! ## Copies lead to at most one candidate that stays -/

/-- Follow copies. -/
inductive Cp (st : St) : Id → Id → Prop
  | refl (x) : Cp st x x
  | step {x ph z} : st.phis x = some ph → ph.copyOf ≠ 0 → Cp st ph.copyOf z → Cp st x z

theorem Cp.trans {st : St} {x y z : Id} (h : Cp st x y) (h' : Cp st y z) : Cp st x z := by
  induction h with
  | refl => exact h'
  | step h1 h2 _ ih => exact .step h1 h2 (ih h')

theorem Cp.linear {st : St} {x y z : Id} (h : Cp st x y) : Cp st x z → Cp st y z ∨ Cp st z y := by
  induction h with
  | refl => exact .inl
  | step h1 h2 h3 ih =>
    intro h'
    cases h' with
    | refl => exact .inr (.step h1 h2 h3)
    | step h4 h5 h6 =>
      rw [h1] at h4; cases h4
      exact ih h6

theorem Eqv.meet {st : St} {x y : Id} (h : Eqv st x y) : ∃ z, Cp st x z ∧ Cp st y z := by
  induction h with
  | refl x => exact ⟨x, .refl _, .refl _⟩
  | copy h1 h2 => exact ⟨_, .step h1 h2 (.refl _), .refl _⟩
  | symm _ ih => obtain ⟨z, h1, h2⟩ := ih; exact ⟨z, h2, h1⟩
  | trans _ _ ih1 ih2 =>
    obtain ⟨z, h1, h2⟩ := ih1
    obtain ⟨w, h3, h4⟩ := ih2
    rcases h2.linear h3 with h | h
    · exact ⟨w, h1.trans h, h4⟩
    · exact ⟨z, h1, h4.trans h⟩

/-- Not a removed candidate. -/
def Root (st : St) (x : Id) : Prop := ∀ ph, st.phis x = some ph → ph.copyOf = 0

theorem Root.cp {st : St} {x z : Id} (hx : Root st x) (h : Cp st x z) : z = x := by
  cases h with
  | refl => rfl
  | step h1 h2 => exact absurd (hx _ h1) h2

theorem root_unique {st : St} {x y : Id} (hx : Root st x) (hy : Root st y) (h : Eqv st x y) : x = y := by
  obtain ⟨z, h1, h2⟩ := h.meet
  rw [← hx.cp h1, hy.cp h2]

open Classical in
/-- What an id is in the end a copy of. -/
noncomputable def rootOf (st : St) (x : Id) : Option Id :=
  if h : ∃ y, Root st y ∧ Eqv st x y then some h.choose else none

theorem rootOf_eq {st : St} {x y : Id} (hy : Root st y) (h : Eqv st x y) : rootOf st x = some y := by
  have he : ∃ y, Root st y ∧ Eqv st x y := ⟨y, hy, h⟩
  unfold rootOf
  rw [dif_pos he]
  have := he.choose_spec
  rw [root_unique this.1 hy (this.2.symm.trans h)]

theorem rootOf_some {st : St} {x y : Id} (h : rootOf st x = some y) : Root st y ∧ Eqv st x y := by
  unfold rootOf at h
  split at h
  · rename_i he
    cases h
    exact he.choose_spec
  · cases h

theorem rootOf_congr {st : St} {x y : Id} (h : Eqv st x y) : rootOf st x = rootOf st y := by
  cases hy : rootOf st y with
  | some z => obtain ⟨h1, h2⟩ := rootOf_some hy; exact rootOf_eq h1 (h.trans h2)
  | none =>
    cases hx : rootOf st x with
    | none => rfl
    | some z =>
      obtain ⟨h1, h2⟩ := rootOf_some hx
      rw [rootOf_eq h1 (h.symm.trans h2)] at hy
      cases hy

theorem rootOf_root {st : St} {x : Id} (h : Root st x) : rootOf st x = some x := rootOf_eq h (.refl _)

theorem resolve_root {st : St} : ∀ {n : Nat} {a z : Id}, resolve st n a = some z → rootOf st a = some z
  | 0, _, _, h => by cases h
  | n + 1, a, z, h => by
    unfold resolve at h
    split at h
    · cases h
    · split at h
      · rename_i hp
        cases h
        exact rootOf_root fun ph hph => by rw [hp] at hph; cases hph
      · rename_i ph hp
        split at h
        · rename_i hc
          cases h
          refine rootOf_root fun ph' hph' => ?_
          rw [hp] at hph'; cases hph'
          simp at hc; exact hc.2
        · have h1 := resolve_root h
          by_cases h0 : ph.copyOf = 0
          · rw [h0] at h
            cases n with
            | zero => cases h
            | succ n => simp [resolve] at h
          · rw [rootOf_congr (.copy hp h0)]; exact h1

/-! ## Lists -/

theorem mapM_get {α β : Type} {g : α → Option β} : ∀ {l : List α} {l' : List β}, l.mapM g = some l' →
    l'.length = l.length ∧ ∀ (i : Nat) (a : α), l[i]? = some a → ∃ y, g a = some y ∧ l'[i]? = some y
  | [], l', h => by
    simp at h; subst h; simp
  | a :: l, l', h => by
    simp only [List.mapM_cons, Option.bind_eq_bind, Option.bind_eq_some_iff, Option.pure_def] at h
    obtain ⟨y, hy, l1, h1, h2⟩ := h
    cases h2
    obtain ⟨hl, hg⟩ := mapM_get h1
    refine ⟨by simp [hl], fun i b hb => ?_⟩
    cases i with
    | zero => simp at hb; subst hb; exact ⟨y, hy, by simp⟩
    | succ i => simpa using hg i b (by simpa using hb)

theorem mapM_mem {α β : Type} {g : α → Option β} {l : List α} {l' : List β} (h : l.mapM g = some l') {y : β}
    (hy : y ∈ l') : ∃ a ∈ l, g a = some y := by
  obtain ⟨hl, hg⟩ := mapM_get h
  obtain ⟨i, hi⟩ := List.getElem?_of_mem hy
  have hlt : i < l.length := by
    have := (List.getElem?_eq_some_iff.1 hi).1
    omega
  obtain ⟨z, h1, h2⟩ := hg i _ (List.getElem?_eq_getElem hlt)
  rw [hi] at h2; cases h2
  exact ⟨_, List.getElem_mem hlt, h1⟩

theorem zip_lookup {p : Block} : ∀ {l : List Block}, p ∈ l → ∃ i : Nat, l[i]? = some p ∧
    ∀ l2 : List Id, l2.length = l.length → (l.zip l2).lookup p = l2[i]?
  | q :: l, h => by
    by_cases hq : p = q
    · subst hq
      refine ⟨0, by simp, fun l2 hl => ?_⟩
      cases l2 with
      | nil => simp at hl
      | cons a l2 => simp [List.lookup]
    · have : p ∈ l := by simpa [hq] using h
      obtain ⟨i, h1, h2⟩ := zip_lookup this
      refine ⟨i + 1, by simpa using h1, fun l2 hl => ?_⟩
      cases l2 with
      | nil => simp at hl
      | cons a l2 =>
        have hb : (p == q) = false := by simp [hq]
        simp only [List.zip_cons_cons, List.lookup, hb]
        rw [h2 l2 (by simpa using hl)]
        simp

theorem lookup_mem {r x : Id} : ∀ {l : List (Id × Id)}, l.lookup r = some x → (r, x) ∈ l
  | (a, b) :: l, h => by
    simp only [List.lookup] at h
    split at h
    · rename_i e
      simp at e
      cases h; subst e; simp
    · exact List.mem_cons_of_mem _ (lookup_mem h)

theorem lookup_some {r x : Id} : ∀ {l : List (Id × Id)}, (r, x) ∈ l → ∃ x', l.lookup r = some x'
  | (a, b) :: l, h => by
    simp only [List.lookup]
    split
    · exact ⟨_, rfl⟩
    · rename_i e
      have hne : r ≠ a := by simpa using e
      rcases List.mem_cons.1 h with h | h
      · cases h; exact absurd rfl hne
      · exact lookup_some h

theorem lookup_mapM {g : Id → Option Id} {r : Id} : ∀ {l l' : List (Id × Id)},
    l.mapM (fun e => (g e.2).map fun x => (e.1, x)) = some l' →
    (l.lookup r = none → l'.lookup r = none) ∧
    ∀ y, l.lookup r = some y → ∃ z, g y = some z ∧ l'.lookup r = some z
  | [], l', h => by simp at h; subst h; simp
  | (a, b) :: l, l', h => by
    simp only [List.mapM_cons, Option.bind_eq_bind, Option.bind_eq_some_iff, Option.pure_def,
      Option.map_eq_some_iff] at h
    obtain ⟨e, ⟨w, hw, rfl⟩, l1, h1, h2⟩ := h
    cases h2
    have ih := lookup_mapM (r := r) h1
    by_cases hr : r = a
    · subst hr
      simp only [List.lookup, beq_self_eq_true]
      exact ⟨by simp, fun y hy => by cases hy; exact ⟨w, hw, rfl⟩⟩
    · have hb : (r == a) = false := by simp [hr]
      simp only [List.lookup, hb]
      exact ih

theorem follow_chain {loads : List (Id × Id)} : ∀ {n : Nat} {a z : Id}, follow loads n a = some z →
    Chain (fun r => loads.lookup r) a z
  | 0, _, _, h => by cases h
  | n + 1, a, z, h => by
    unfold follow at h
    split at h
    · rename_i hn; cases h; exact .done hn
    · rename_i x hx; exact .next hx (follow_chain h)

/-! ## The choices read off the final state -/

/-- The value at entry, copies followed. -/
noncomputable def finE (st : St) (E : Ent) : Ent := fun b v => (E b v).bind (rootOf st)

/-- The phis to generate, with one value for every predecessor. -/
noncomputable def finPhi (P : Prog) (st : St) : PhiMap := fun x =>
  if x ∈ st.toGen then
    (st.phis x).map fun ph => (ph.bb, ph.var, fun p =>
      (((P.preds ph.bb).zip (ph.args.map fun a => (rootOf st a).getD 0)).lookup p).getD 0)
  else none

section
variable {P : Prog} {fresh : Id} {st : St} {E : Ent}

theorem finPhi_some {x : Id} {b : Block} {v : Var} {a : Block → Id} (h : finPhi P st x = some (b, v, a)) :
    x ∈ st.toGen ∧ ∃ ph, st.phis x = some ph ∧ ph.bb = b ∧ ph.var = v ∧
      a = fun p => (((P.preds ph.bb).zip (ph.args.map fun a => (rootOf st a).getD 0)).lookup p).getD 0 := by
  unfold finPhi at h
  split at h
  · rename_i hm
    simp only [Option.map_eq_some_iff] at h
    obtain ⟨ph, h1, h2⟩ := h
    cases h2
    exact ⟨hm, ph, h1, rfl, rfl, rfl⟩
  · cases h

theorem root_lt {pos : Block → Option Nat} {S : List Id} (h : Inv P fresh st E pos S) {x : Id}
    (hx : x < fresh) : Root st x := fun ph hp =>
  absurd (h.phi_ok x ph hp).1 (Nat.not_le.2 hx)

theorem lastStore_mem' {v : Var} {x : Id} : ∀ {is : List Inst} {acc : Option Id},
    is.foldl (fun acc i => match i with
      | .store w x => if w = v then some x else acc
      | _ => acc) acc = some x → acc = some x ∨ Inst.store v x ∈ is
  | [], acc, h => .inl h
  | i :: is, acc, h => by
    rcases lastStore_mem' (is := is) h with h1 | h1
    · cases i with
      | store w y =>
        simp only at h1
        split at h1
        · rename_i e; cases h1; subst e; exact .inr (by simp)
        · exact .inl h1
      | load => exact .inl h1
      | other => exact .inl h1
    · exact .inr (List.mem_cons_of_mem _ h1)

theorem lastStore_mem {v : Var} {x : Id} {is : List Inst} (h : lastStore v is = some x) :
    Inst.store v x ∈ is := (lastStore_mem' h).resolve_left (by simp)

theorem reaching_fin (hV : Valid P fresh) {pos : Block → Option Nat} {S : List Id}
    (h : Inv P fresh st E pos S) {v : Var} {q : Pt} (hq : q.1 ∈ P.order) :
    reaching P (finE st E) v q = (reaching P E v q).bind (rootOf st) := by
  unfold reaching
  cases hl : lastStore v ((P.insts q.1).take q.2) with
  | none => rfl
  | some x =>
    have hm := List.mem_of_mem_take (lastStore_mem hl)
    have := (hV.ids q.1 hq _ hm x (.inl (by simp [Inst.operands]))).2
    simp [rootOf_root (root_lt h this)]

/-- What the emission tells about the final state. -/
structure Emitted (P : Prog) (st : St) (fuel : Nat) (o : Out) : Prop where
  phis : st.toGen.mapM (emitPhi P st fuel) = some o.phis
  repl : st.loads.mapM (fun e => (follow st.loads fuel e.2).map fun x => (e.1, x)) = some o.repl

theorem emit_some {fuel : Nat} {o : Out} (h : emit P st fuel = some o) : Emitted P st fuel o := by
  unfold emit at h
  split at h
  · rename_i a b h1 h2
    cases h
    exact ⟨h1, h2⟩
  · cases h

theorem emitPhi_some {fuel : Nat} {p : Id} {f} (h : emitPhi P st fuel p = some f) :
    ∃ ph args, st.phis p = some ph ∧
      (ph.args.mapM fun a => (resolve st fuel a).bind (follow st.loads fuel)) = some args ∧
      f = (p, ph.bb, (P.preds ph.bb).zip args) := by
  unfold emitPhi at h
  split at h
  · cases h
  · rename_i ph hp
    split at h
    · cases h
    · rename_i args ha
      cases h
      exact ⟨ph, args, hp, ha, rfl⟩

theorem gen_emitted {fuel : Nat} {o : Out} (he : Emitted P st fuel o) {p : Id} (hp : p ∈ st.toGen) :
    ∃ f ∈ o.phis, emitPhi P st fuel p = some f := by
  obtain ⟨i, hi⟩ := List.getElem?_of_mem hp
  obtain ⟨f, h1, h2⟩ := (mapM_get he.phis).2 i p hi
  exact ⟨f, List.mem_of_getElem? h2, h1⟩

/-- The value a new phi gets from a predecessor. -/
theorem fin_arg (hV : Valid P fresh) {pos : Block → Option Nat} {S : List Id}
    (h : Inv P fresh st E pos S) {fuel : Nat} {o : Out} (he : Emitted P st fuel o) {x : Id} {b : Block}
    {v : Var} {a : Block → Id} (hx : finPhi P st x = some (b, v, a)) {p : Block} (hp : p ∈ P.preds b)
    (ho : p ∈ P.order) :
    reaching P (finE st E) v (p, (P.insts p).length) = some (a p) ∧
    ∃ f y, emitPhi P st fuel x = some f ∧ f ∈ o.phis ∧ f.2.1 = b ∧ f.2.2.lookup p = some y ∧
      Chain (fun r => st.loads.lookup r) (a p) y := by
  obtain ⟨hg, ph, hph, rfl, rfl, rfl⟩ := finPhi_some hx
  obtain ⟨ph', hph', hc0, _, hfull⟩ := h.gen_ok x hg
  rw [hph] at hph'; cases hph'
  obtain ⟨f, hf, hfe⟩ := gen_emitted he hg
  obtain ⟨ph', args, hph', hargs, rfl⟩ := emitPhi_some hfe
  rw [hph] at hph'; cases hph'
  obtain ⟨hal, hag⟩ := mapM_get hargs
  obtain ⟨i, hi, hz⟩ := zip_lookup hp
  have hil : i < ph.args.length := by
    rw [hfull.1]; exact (List.getElem?_eq_some_iff.1 hi).1
  have hai := List.getElem?_eq_getElem hil
  generalize ph.args[i] = ai at hai
  obtain ⟨y, hy, hy'⟩ := hag i ai hai
  simp only [Option.bind_eq_some_iff] at hy
  obtain ⟨z, hz1, hz2⟩ := hy
  have hroot := resolve_root hz1
  have hap : (((P.preds ph.bb).zip (ph.args.map fun a => (rootOf st a).getD 0)).lookup p).getD 0 = z := by
    rw [hz _ (by simp [hfull.1]), List.getElem?_map, hai]
    simp [hroot]
  simp only [hap]
  constructor
  · obtain ⟨w, h1, h2⟩ := h.args_ok x ph i ai p hph hai (hfull.2 ai (List.mem_of_getElem? hai)) hi ho
    rw [reaching_fin hV h (q := (p, _)) ho, h1]
    simp only [Option.bind_some]
    rw [← rootOf_congr h2, hroot]
  · exact ⟨_, y, hfe, hf, rfl, by rw [hz _ (by rw [hal, hfull.1])]; exact hy', follow_chain hz2⟩

theorem load_root {pos : Block → Option Nat} {S : List Id} (hV : Valid P fresh)
    (h : Inv P fresh st E pos S) {fuel : Nat} {o : Out} (he : Emitted P st fuel o) (hcl : o.Closed fresh)
    {r x : Id} (hl : st.loads.lookup r = some x) : Root st x := by
  by_cases hx : x < fresh
  · exact root_lt h hx
  · obtain ⟨z, hz1, hz2⟩ := (lookup_mapM (r := r) he.repl).2 x hl
    have hkey : st.loads.lookup x = none := by
      cases hk : st.loads.lookup x with
      | none => rfl
      | some w =>
        obtain ⟨b, k, v, y, hb, hi, _, _⟩ := h.loads_ok _ (lookup_mem hk)
        exact absurd (load_lt hV hb hi) hx
    have hzx : z = x := by
      cases fuel with
      | zero => cases hz1
      | succ n => simp only [follow, hkey] at hz1; cases hz1; rfl
    subst hzx
    rcases hcl _ (lookup_mem hz2) with h1 | ⟨f, hf, h1⟩
    · exact absurd h1 hx
    · obtain ⟨p, hp, hpf⟩ := mapM_mem he.phis hf
      obtain ⟨ph, args, _, _, rfl⟩ := emitPhi_some hpf
      simp only at h1
      subst h1
      obtain ⟨ph', h2, h3, _⟩ := h.gen_ok p hp
      intro ph'' h4
      rw [h2] at h4; cases h4
      exact h3

theorem fin_cert (hV : Valid P fresh) (h : Inv P fresh st E (posDone P P.order) []) (hq : st.queue = [])
    {fuel : Nat} {o : Out} (he : Emitted P st fuel o) (hcl : o.Closed fresh) :
    Cert P fresh (finPhi P st) (fun r => st.loads.lookup r) (finE st E) := by
  constructor
  · rintro x ⟨b, v, a⟩ hx
    obtain ⟨_, ph, hph, _⟩ := finPhi_some hx
    exact (h.phi_ok x ph hph).1
  · rintro x ⟨b, v, a⟩ hx e
    obtain ⟨_, ph, hph, rfl, _⟩ := finPhi_some hx
    have := (h.phi_ok x ph hph).2.2.2
    simp only at e
    rw [e, hV.entry_preds] at this
    simp at this
  · intro x b v a hx p hp ho
    exact (fin_arg hV h he hx hp ho).1
  · intro v x hx
    simp only [finE, Option.bind_eq_some_iff] at hx
    obtain ⟨x0, h0, hr⟩ := hx
    rcases (h.ent _ _ _ h0).2.2.2 with ⟨_, rfl⟩ | ⟨p, y, hp, _⟩ | ⟨p, ph, hp, hb, _⟩
    · rw [rootOf_root (root_lt h (hV.undef_id v).2)] at hr
      exact (Option.some.inj hr).symm
    · rw [hV.entry_preds] at hp; cases hp
    · have := (h.phi_ok p ph hp).2.2.2
      rw [hb, hV.entry_preds] at this
      simp at this
  · intro b v x hb hne hx
    simp only [finE, Option.bind_eq_some_iff] at hx
    obtain ⟨x0, h0, hr⟩ := hx
    rcases (h.ent _ _ _ h0).2.2.2 with ⟨hp, _⟩ | ⟨p, y, hp, hy, hxy⟩ | ⟨p, ph, hp, hbb, hv, hxp⟩
    · exact absurd (hV.no_preds b hb hp) hne
    · right
      intro p' hp' ho
      rw [hp] at hp'
      simp at hp'
      subst hp'
      rw [reaching_fin hV h (q := (p', _)) ho, hy]
      simp only [Option.bind_some]
      rw [← rootOf_congr hxy, hr]
    · subst hbb hv
      rcases h.status p ph hp with h1 | h1 | ⟨hf, hc | hg⟩
      · cases h1
      · rw [hq] at h1; cases h1.1
      · right
        intro p' hp' ho
        obtain ⟨i, hi⟩ := List.getElem?_of_mem hp'
        have hil : i < ph.args.length := by
          rw [hf.1]; exact (List.getElem?_eq_some_iff.1 hi).1
        have hm := List.getElem_mem hil
        obtain ⟨w, h1, h2⟩ := h.args_ok p ph i _ p' hp (List.getElem?_eq_getElem hil) (hf.2 _ hm) hi ho
        rw [reaching_fin hV h (q := (p', _)) ho, h1]
        simp only [Option.bind_some]
        rw [← hr, rootOf_congr hxp, ← rootOf_congr h2, rootOf_congr (h.copy_ok p ph hp hc _ hm)]
      · left
        obtain ⟨ph', hp', hc0, _⟩ := h.gen_ok p hg
        rw [hp] at hp'; cases hp'
        have hroot : Root st p := fun ph' hp' => by rw [hp] at hp'; cases hp'; exact hc0
        rw [rootOf_eq hroot hxp] at hr
        cases hr
        exact ⟨_, by unfold finPhi; rw [if_pos hg, hp]; rfl⟩
  · intro b k r v hb hi
    have hk := (List.getElem?_eq_some_iff.1 hi).1
    obtain ⟨x, hx⟩ := h.loads_all b _ k r v (by simp [posDone, hb]) hk hi
    obtain ⟨x', hx'⟩ := lookup_some hx
    obtain ⟨b', k', v', y, hb', hi', hy, hxy⟩ := h.loads_ok _ (lookup_mem hx')
    have := hV.unique r (b, k + 1) (b', k' + 1) hb hb' ⟨k, _, rfl, hi, rfl⟩ ⟨k', _, rfl, hi', rfl⟩
    cases this
    rw [hi] at hi'
    cases hi'
    refine ⟨x', hx', ?_⟩
    rw [reaching_fin hV h (q := (b, k)) hb, hy]
    simp only [Option.bind_some]
    rw [← rootOf_congr hxy, rootOf_root (load_root hV h he hcl hx')]
  · intro r x hx
    obtain ⟨b, k, v, y, hb, hi, _⟩ := h.loads_ok _ (lookup_mem hx)
    exact ⟨b, k, v, hb, hi⟩

theorem fin_carries (hV : Valid P fresh) {pos : Block → Option Nat} {S : List Id}
    (h : Inv P fresh st E pos S) {fuel : Nat} {o : Out} (he : Emitted P st fuel o) :
    Carries P (finPhi P st) (fun r => st.loads.lookup r) o := by
  constructor
  · intro x _
    have hm := lookup_mapM (r := x) he.repl
    unfold Out.use
    cases hx : st.loads.lookup x with
    | none => rw [hm.1 hx]; exact .done hx
    | some y =>
      obtain ⟨z, h1, h2⟩ := hm.2 y hx
      rw [h2]
      exact .next hx (follow_chain h1)
  · intro x b v a p hx hp ho
    obtain ⟨_, f, y, h1, h2, h3, h4, h5⟩ := fin_arg hV h he hx hp ho
    have hf1 : f.1 = x := by
      obtain ⟨ph, args, _, _, rfl⟩ := emitPhi_some h1; rfl
    cases hfind : o.phis.find? (fun f => f.1 == x && f.2.1 == b) with
    | none =>
      have := List.find?_eq_none.1 hfind f h2
      simp [hf1, h3] at this
    | some g =>
      have hg := List.find?_some hfind
      simp at hg
      obtain ⟨p', hp', hpg⟩ := mapM_mem he.phis (List.mem_of_find?_eq_some hfind)
      have : p' = x := by
        obtain ⟨ph, args, _, _, rfl⟩ := emitPhi_some hpg; exact hg.1
      subst this
      rw [h1] at hpg; cases hpg
      exact ⟨f, y, rfl, h4, h5⟩
  · intro f hf
    obtain ⟨p, hp, hpf⟩ := mapM_mem he.phis hf
    obtain ⟨ph, args, hph, _, rfl⟩ := emitPhi_some hpf
    exact ⟨ph.var, _, by unfold finPhi; rw [if_pos hp, hph]; rfl⟩

/-- The choices behind a successful run. -/
theorem rewrite_cert (hV : Valid P fresh) (hf0 : fresh ≠ 0) {fuel : Nat} {o : Out}
    (hr : rewrite P fuel fresh = some (o, false)) (hcl : o.Closed fresh) :
    ∃ phi c E, Cert P fresh phi c E ∧ Carries P phi c o := by
  unfold rewrite at hr
  simp only [Option.bind_eq_some_iff, Option.map_eq_some_iff] at hr
  obtain ⟨st, h1, o', h2, h3⟩ := hr
  have hc : st.clobbered = false := congrArg Prod.snd h3
  have ho : o' = o := congrArg Prod.fst h3
  subst ho
  obtain ⟨E, hi, hq⟩ := run_ok hV hf0 h1 hc
  have he := emit_some h2
  exact ⟨_, _, _, fin_cert hV hi hq he hcl, fin_carries hV hi he⟩

end

end Verif.Ssa
