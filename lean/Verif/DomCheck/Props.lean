import Verif.DomCheck.Exact
import Verif.DomCheck.Witness
/-!
# C41 — the dominance check
-/
set_option linter.unusedVariables false
namespace Verif.DomCheck
open Verif.Cfa Verif.Cfa.Spec Spec
variable {B : Type} [DecidableEq B] [Blocks B]

theorem reachability_exact (m : Module B) (b : B) : b ∈ reachability m.funcs ↔ Reachable m b :=
  mem_reachability

/-- **C41** (soundness, any control-flow graph). If the dominance check accepts a module, each
id used in a reachable block is defined in a block dominating it; each value a phi in a
reachable block takes from a reachable parent is defined in a block dominating the parent;
labels and parameters are used in their own function only. No hypothesis is made on the
shape of the control-flow graphs, in particular none on the order of the blocks. -/
theorem accepted_uses_dominated {m : Module B} (ok : ModuleOk m) {fuel}
    (h : check fuel m = some true) : UsesDominated m := by
  unfold check at h
  cases he : idomEdges fuel m.funcs with
  | none => rw [he] at h; cases h
  | some es =>
    rw [he] at h
    dsimp only at h
    cases hd : checkDefs m (fun b => es.lookup b) (reachability m.funcs) fuel m.insts [] with
    | none => rw [hd] at h; cases h
    | some q =>
      obtain ⟨phis, r⟩ := q
      rw [hd] at h
      cases r with
      | false => cases h
      | true =>
        dsimp only at h
        obtain ⟨k1, -, k3, -⟩ := checkDefs_true m _ _ fuel _ _ _ hd
        have hphi := checkPhis_true m _ _ fuel _ h
        constructor
        · intro d hdm u hum db ub h0 huse hdb hub hp hr
          have hfn := ok.inFunc d hdm (by rw [hdb]; simp)
          cases hf : d.func with
          | none => exact absurd hf hfn
          | some fn =>
            have := (k1 d hdm h0 fn hf u (mem_usesOf.mpr ⟨hum, huse⟩)).1 db hdb ub hub
              ((reachability_exact m ub).mpr hr) hp
            exact dominates_sound ok he hr this
        · intro u hum d hdm db ub parent hp h0 hin hdb hub hr hrp
          obtain ⟨hu0, -, hinc⟩ := ok.phis u hum hp
          obtain ⟨huse, -⟩ := hinc _ _ hin
          have hfn := ok.inFunc d hdm (by rw [hdb]; simp)
          have hlive : LivePhi (reachability m.funcs) u :=
            ⟨hp, ub, hub, (reachability_exact m ub).mpr hr⟩
          obtain ⟨v, hv, e⟩ := k3 d hdm h0 hfn (by rw [hdb]; simp) u (mem_usesOf.mpr ⟨hum, huse⟩) hlive
          have hvm : v ∈ m.insts := by
            rcases (checkDefs_true m _ _ fuel _ _ _ hd).2.2.2 v hv with h | h
            · cases h
            · exact h.1
          have : u = v := id_unique ok hum hvm hu0 e.symm
          subst this
          have := hphi u hv hlive _ _ hin d db ((findDef_iff ok).mpr ⟨hdm, rfl, h0⟩) hdb
            ((reachability_exact m parent).mpr hrp)
          exact dominates_sound ok he hrp this
        · intro d hdm u hum f g h0 huse hdb hf hg
          exact (k1 d hdm h0 f hf u (mem_usesOf.mpr ⟨hum, huse⟩)).2 hdb g hg

/-- **C41** (decision procedure). When the blocks with merge instructions can leave their
function, the check terminates and accepts exactly the modules whose uses are dominated. -/
theorem check_exact {m : Module B} (ok : ModuleOk m) (me : ∀ f ∈ m.funcs, MergesExit f) :
    ∃ F, ∀ fuel, F ≤ fuel → ∃ r, check fuel m = some r ∧ (r = true ↔ UsesDominated m) := by
  obtain ⟨F, hF⟩ := module_exact ok me
  refine ⟨F, fun fuel hfuel => ?_⟩
  obtain ⟨es, he, hdom⟩ := hF fuel hfuel
  have hT : ∀ db, ∀ ub ∈ reachability m.funcs, dominates (fun b => es.lookup b) db fuel ub ≠ none := by
    intro db ub hub
    obtain ⟨r, h, -⟩ := hdom db ub ((reachability_exact m ub).mp hub)
    rw [h]; simp
  have hans : ∀ db ub, Reachable m ub → DominatesReachable m db ub →
      dominates (fun b => es.lookup b) db fuel ub = some true := by
    intro db ub hr hd
    obtain ⟨r, h1, h2⟩ := hdom db ub hr
    rw [h1, h2.mpr hd]
  have total : ∃ r, check fuel m = some r ∧ (r = false → ¬ UsesDominated m) := by
    unfold check
    rw [he]
    dsimp only
    obtain ⟨phis, r, h1, h2⟩ := checkDefs_total m (fun b => es.lookup b) (reachability m.funcs) fuel hT m.insts []
    rw [h1]
    cases r with
    | false =>
      refine ⟨false, rfl, fun _ hu => ?_⟩
      obtain ⟨d, hd, hn⟩ := h2 rfl
      refine hn fun h0 fn hfn u hum => ?_
      obtain ⟨hum, huse⟩ := mem_usesOf.mp hum
      refine ⟨fun db hdb ub hub hr hp => ?_, fun hdb g hg => hu.scope d hd u hum fn g h0 huse hdb hfn hg⟩
      have hr' := (reachability_exact m ub).mp hr
      exact hans db ub hr' (hu.plain d hd u hum db ub h0 huse hdb hub hp hr')
    | true =>
      dsimp only
      obtain ⟨-, -, -, k4⟩ := checkDefs_true m _ _ fuel _ _ _ h1
      have hlive : ∀ u ∈ phis, u ∈ m.insts ∧ LivePhi (reachability m.funcs) u := fun u hu =>
        (k4 u hu).resolve_left (by simp)
      obtain ⟨r, h3, h4⟩ := checkPhis_total m (fun b => es.lookup b) (reachability m.funcs) fuel hT phis (by
        intro u hu
        obtain ⟨hum, hl⟩ := hlive u hu
        refine ⟨hl, fun w p hin => ?_⟩
        obtain ⟨d, hd, h5, h6⟩ := ((ok.phis u hum hl.1).2.2 w p hin).2
        rw [(findDef_iff ok).mpr ⟨hd, h5, h6⟩]; simp)
      refine ⟨r, h3, fun hr hu => ?_⟩
      obtain ⟨u, hu1, hn⟩ := h4 hr
      obtain ⟨hum, hl⟩ := hlive u hu1
      obtain ⟨hp, ub, hub, hrb⟩ := hl
      refine hn fun _ w p hin d db hfd hdb hrp => ?_
      obtain ⟨hd, hw, h0⟩ := (findDef_iff ok).mp hfd
      have hrp' := (reachability_exact m p).mp hrp
      refine hans db p hrp' (hu.phi u hum d hd db ub p hp (by rw [hw]; exact h0) (by rw [hw]; exact hin)
        hdb hub ((reachability_exact m ub).mp hrb) hrp')
  obtain ⟨r, h1, h2⟩ := total
  refine ⟨r, h1, fun h => ?_, fun h => ?_⟩
  · rw [h] at h1; exact accepted_uses_dominated ok h1
  · cases r with
    | true => rfl
    | false => exact absurd h (h2 rfl)

/-! ## Examples -/

/-- A selection: block 0 (merge 3) branches to 1 and 2, both to 3. Blocks 4 and 5 are the
pseudo blocks. -/
def diamond : Func (Fin 6) where
  ordered := [0, 1, 2, 3]
  succ := fun | 0 => [1, 2] | 1 => [3] | 2 => [3] | _ => []
  merges := fun | 0 => [3] | _ => []
  pseudoEntry := 4
  pseudoExit := 5

/-- Id 10 is defined in block 0 and used in 1; the phi 13 in block 3 takes 11 from block 1
and 12 from block 2. -/
def diamondInsts : List (Inst (Fin 6)) :=
  [⟨10, some 0, some 0, false, [], []⟩, ⟨11, some 0, some 1, false, [10], []⟩,
   ⟨12, some 0, some 2, false, [10], []⟩, ⟨13, some 0, some 3, true, [11, 12], [(11, 1), (12, 2)]⟩]

theorem diamond_ok : ModuleOk ⟨[diamond], diamondInsts⟩ where
  funcs := by
    intro f hf
    simp at hf; subst hf
    exact ⟨by decide, by decide, by decide, by decide, by decide⟩
  disjoint := by simp
  ids := by decide
  phis := by
    intro i hi hp
    simp only [diamondInsts, List.mem_cons, List.not_mem_nil, or_false] at hi
    rcases hi with rfl | rfl | rfl | rfl
    · cases hp
    · cases hp
    · cases hp
    · refine ⟨by simp, by simp, fun w p hin => ?_⟩
      simp at hin
      rcases hin with ⟨rfl, rfl⟩ | ⟨rfl, rfl⟩ <;> simp [diamondInsts]
  inFunc := by decide

/-- Non-vacuity of `accepted_uses_dominated`: the module above is accepted. -/
example : ModuleOk (⟨[diamond], diamondInsts⟩ : Module (Fin 6)) ∧
    check 20 ⟨[diamond], diamondInsts⟩ = some true :=
  ⟨diamond_ok, checkF_eq (n := 60) (by decide +kernel)⟩

/-- … and one using the value of block 1 in block 2 is not. -/
example : check 20 (⟨[diamond], diamondInsts ++ [⟨0, some 0, some 2, false, [11], []⟩]⟩ : Module (Fin 6)) =
    some false :=
  checkF_eq (n := 60) (by decide +kernel)

/-- Non-vacuity of `check_exact`: block 0 reaches block 3, which has no way on. -/
example : ∀ f ∈ [diamond], MergesExit f := by
  intro f hf
  simp at hf; subst hf
  intro b hb
  have hb0 : b = 0 := by revert hb; revert b; decide
  subst hb0
  exact ⟨3, .tail (.refl _) (by decide), by decide⟩

/-! ## The check is not exact in general -/

/-- Blocks 0 → 3, 1; 1 → 2; 2 → 1, 2; 3 → 1, 3, and 3 has a selection merge naming 2. No
block leaves the function. -/
def endless : Func (Fin 6) where
  ordered := [0, 1, 2, 3]
  succ := fun | 0 => [3, 1] | 1 => [2] | 2 => [1, 2] | 3 => [1, 3] | _ => []
  merges := fun | 3 => [2] | _ => []
  pseudoEntry := 4
  pseudoExit := 5

/-- Id 10 is defined in block 1 and used in block 2. -/
def endlessInsts : List (Inst (Fin 6)) :=
  [⟨10, some 0, some 1, false, [], []⟩, ⟨0, some 0, some 2, false, [10], []⟩]

theorem endless_ok : ModuleOk ⟨[endless], endlessInsts⟩ where
  funcs := by
    intro f hf
    simp at hf; subst hf
    exact ⟨by decide, by decide, by decide, by decide, by decide⟩
  disjoint := by simp
  ids := by decide
  phis := by
    intro i hi hp
    simp only [endlessInsts, List.mem_cons, List.not_mem_nil, or_false] at hi
    rcases hi with rfl | rfl <;> cases hp
  inFunc := by decide

/-- `MergesExit` cannot be dropped from `check_exact`: in the function above block 1 dominates
block 2, yet the check rejects the use in block 2 of an id defined in block 1. The augmented
graph gives a block of an endless loop its merge block as a successor, so that block 2 is
visited before its only real predecessor. -/
theorem dominated_use_rejected :
    ModuleOk (⟨[endless], endlessInsts⟩ : Module (Fin 6)) ∧
    UsesDominated (⟨[endless], endlessInsts⟩ : Module (Fin 6)) ∧
    check 20 (⟨[endless], endlessInsts⟩ : Module (Fin 6)) = some false := by
  refine ⟨endless_ok, ⟨?_, ?_, ?_⟩, checkF_eq (n := 60) (by decide +kernel)⟩
  · intro d hd u hu db ub h0 huse hdb hub hp hr
    simp only [endlessInsts, List.mem_cons, List.not_mem_nil, or_false] at hd hu
    have hd' : d.block = some 1 := by
      rcases hd with rfl | rfl
      · rfl
      · exact absurd rfl h0
    have hu' : u.block = some 2 := by
      rcases hu with rfl | rfl
      · simp at huse
      · rfl
    rw [hd'] at hdb
    rw [hu'] at hub
    cases hdb
    cases hub
    obtain ⟨f, hf, first, hri⟩ := hr
    refine ⟨f, hf, first, hri, ?_⟩
    simp at hf
    subst hf
    have hfirst : first = 0 := (Option.some.inj hri.1).symm
    subst hfirst
    have key : ∀ b p, Path (Flow endless) 0 b p → b = 2 → (1 : Fin 6) ∈ p := by
      intro b p hpath
      induction hpath with
      | single => intro h; cases h
      | @snoc b c p hpath he ih =>
        rintro rfl
        have hb : b = 1 ∨ b = 2 :=
          (by decide : ∀ b, (2 : Fin 6) ∈ endless.succ b → b = 1 ∨ b = 2) b he
        rcases hb with rfl | hb
        · exact List.mem_append_left _ (path_last hpath)
        · exact List.mem_append_left _ (ih hb)
    exact fun p hpath => key 2 p hpath rfl
  · intro u hu d hd db ub parent hp
    simp only [endlessInsts, List.mem_cons, List.not_mem_nil, or_false] at hu
    rcases hu with rfl | rfl <;> cases hp
  · intro d hd u hu f g h0 huse hdb
    simp only [endlessInsts, List.mem_cons, List.not_mem_nil, or_false] at hd
    rcases hd with rfl | rfl
    · cases hdb
    · exact absurd rfl h0

end Verif.DomCheck
