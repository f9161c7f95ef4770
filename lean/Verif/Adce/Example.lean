import Verif.Adce.Kept
set_option linter.unusedSimpArgs false
set_option linter.unusedVariables false
/-!
# Functions to look at
-/
namespace Verif.Adce.Example
open Verif.Adce Verif.Adce.Spec

/-! ## Evaluating the marking -/

/-- `process` with a bound. -/
def processN (deps : Item → List Item) (U : List Item) : Nat → List Item → List Item → Option (List Item)
  | _, [], live => some live
  | 0, _ :: _, _ => none
  | n + 1, x :: w, live =>
    let f := fresh U live (deps x)
    processN deps U n (w ++ f) (live ++ f)

theorem processN_eq {deps : Item → List Item} {U : List Item} : ∀ n w live r,
    processN deps U n w live = some r → process deps U w live = r := by
  intro n
  induction n with
  | zero =>
    intro w live r h
    cases w with
    | nil => simp only [processN, Option.some.injEq] at h; rw [process]; exact h
    | cons x w => simp [processN] at h
  | succ n ih =>
    intro w live r h
    cases w with
    | nil => simp only [processN, Option.some.injEq] at h; rw [process]; exact h
    | cons x w => rw [process]; exact ih _ _ _ h

def liveN (F : Func) (n : Nat) : Option (List Item) :=
  processN F.deps F.items n (fresh F.items [] F.roots) (fresh F.items [] F.roots)

theorem run_eq {F : Func} {n : Nat} {o : List Block}
    (h : (liveN F n).bind (fun l => kill l F.isVoid none F.order) = some o) :
    F.run = some { F with order := o } := by
  cases hl : liveN F n with
  | none => simp [hl] at h
  | some l =>
    have : F.live = l := processN_eq n _ _ _ hl
    simp only [hl, Option.bind_some] at h
    simp [Func.run, this, h]

/-- A sufficient check for the order of access chains. -/
def basesOk : List Inst → Bool
  | [] => true
  | i :: r => (match i.kind with
    | .chain b _ => (i :: r).all (fun j => !(j.id == b))
    | _ => true) && basesOk r

theorem basesOk_spec : ∀ L, basesOk L = true → ∀ l r i b idx, L = l ++ i :: r → i.kind = .chain b idx →
    ∀ j ∈ i :: r, j.id ≠ b := by
  intro L
  induction L with
  | nil => intro _ l r i b idx h; simp at h
  | cons x L ih =>
    intro hL l r i b idx h hk j hj
    simp only [basesOk, Bool.and_eq_true] at hL
    cases l with
    | nil =>
      simp only [List.nil_append, List.cons.injEq] at h
      obtain ⟨rfl, rfl⟩ := h
      rw [hk] at hL
      have := List.all_eq_true.1 hL.1 j hj
      simpa using this
    | cons y l =>
      simp only [List.cons_append, List.cons.injEq] at h
      exact ih hL.2 l r i b idx h.2 hk j hj

/-! ## A function with a dead selection around a loop, and a live selection -/

/-- `%102` and `%104` are variables of the module, `%100`, `%103` of the function. Block 1 stores a constant, loads it
and branches around blocks 2, 3 and 5, which make a loop that computes something and stores it in `%103`.
Block 4 stores what block 1 loaded, and branches around block 6, which has an effect. -/
def good : Func where
  order := [
    ⟨1, [⟨9, .chain 100 [200]⟩, ⟨10, .store 9 200⟩, ⟨11, .load 100⟩, ⟨12, .pure [11]⟩], some (.sel 4), .choice 201 [2, 4]⟩,
    ⟨2, [⟨13, .phi [(200, 1), (14, 3)]⟩], some (.loop 5 3), .choice 201 [3, 5]⟩,
    ⟨3, [⟨14, .pure [13]⟩], none, .br 2⟩,
    ⟨5, [⟨15, .store 103 13⟩], none, .br 4⟩,
    ⟨4, [⟨17, .phi [(200, 1), (13, 5)]⟩, ⟨16, .store 102 12⟩], some (.sel 7), .choice 201 [6, 7]⟩,
    ⟨6, [⟨18, .effect [200] []⟩], none, .br 7⟩,
    ⟨7, [⟨19, .phi [(11, 4), (18, 6)]⟩], none, .exit [19]⟩]
  vars := [(100, .function), (103, .function), (102, .other), (104, .shared)]
  params := []
  consts := [200, 201]
  isEntry := false
  isVoid := false

/-- The loop, the store in it, and the selection around it are gone: nothing leads to blocks 2, 3 and 5. -/
def goodAfter : Func := { good with order := [
    ⟨1, [⟨9, .chain 100 [200]⟩, ⟨10, .store 9 200⟩, ⟨11, .load 100⟩, ⟨12, .pure [11]⟩], none, .br 4⟩,
    ⟨2, [⟨13, .phi [(200, 1), (14, 3)]⟩], some (.loop 5 3), .choice 201 [3, 5]⟩,
    ⟨3, [⟨14, .pure [13]⟩], none, .br 2⟩,
    ⟨5, [⟨15, .store 103 13⟩], none, .br 4⟩,
    ⟨4, [⟨16, .store 102 12⟩], some (.sel 7), .choice 201 [6, 7]⟩,
    ⟨6, [⟨18, .effect [200] []⟩], none, .br 7⟩,
    ⟨7, [⟨19, .phi [(11, 4), (18, 6)]⟩], none, .exit [19]⟩] }

theorem good_run : good.run = some goodAfter :=
  run_eq (F := good) (n := 100) (o := goodAfter.order) (by decide +kernel)

theorem decl {F : Func} {o : Id}
    (h : (F.insts.any (fun i => i.id == o) || (F.vars.lookup o).isSome || F.params.any (fun p => p.1 == o) ||
      F.consts.contains o) = true) : Declared F o := by
  simp only [Bool.or_eq_true, List.any_eq_true, beq_iff_eq, List.contains_iff_mem] at h
  rcases h with ((⟨i, h1, h2⟩ | h) | ⟨p, h1, h2⟩) | h
  · exact .inl ⟨i, h1, h2⟩
  · exact .inr (.inl h)
  · exact .inr (.inr (.inl (List.mem_map.2 ⟨p, h1, h2⟩)))
  · exact .inr (.inr (.inr h))

/-- The kinds of a function can be looked at one after the other. -/
def phiOk (F : Func) (i : Inst) : Bool := match i.kind with
  | .phi args => args.all (fun a => (F.vars.lookup a.1).isNone && F.params.lookup a.1 != some true &&
      F.insts.all (fun u => u.id != a.1 || match u.kind with | .chain _ _ => false | _ => true))
  | _ => true

def readsOk (i : Inst) : Bool := match i.kind with
  | .effect ops rd => rd.all ops.contains
  | _ => true

def mergeOk (F : Func) (B : Block) : Bool := match B.merge with
  | some (.sel m) => F.order.any (·.id == m) && match B.term with | .choice _ _ => true | _ => false
  | some (.loop m k) => F.order.any (·.id == m) && F.order.any (·.id == k) && !B.term.targets.isEmpty
  | none => true

/-- A check of validity. -/
def validB (F : Func) : Bool :=
  decide (F.order.map (·.id)).Nodup && decide (F.insts.map (·.id)).Nodup &&
  F.insts.all (fun i => (F.vars.lookup i.id).isNone && i.kind.ops.all (fun o =>
    F.insts.any (fun i => i.id == o) || (F.vars.lookup o).isSome || F.params.any (fun p => p.1 == o) ||
      F.consts.contains o) && i.kind.labels.all (fun b => F.order.any (·.id == b)) && phiOk F i && readsOk i) &&
  F.order.all (fun B => B.term.ops.all (fun o =>
    F.insts.any (fun i => i.id == o) || (F.vars.lookup o).isSome || F.params.any (fun p => p.1 == o) ||
      F.consts.contains o) && B.term.targets.all (fun b => F.order.any (·.id == b)) && mergeOk F B) &&
  basesOk F.insts

theorem label_of {F : Func} {b : Id} (h : F.order.any (·.id == b) = true) : Label F b := by
  simp only [List.any_eq_true, beq_iff_eq] at h
  exact h

theorem validB_spec {F : Func} (h : validB F = true) : Valid F := by
  simp only [validB, Bool.and_eq_true, List.all_eq_true, decide_eq_true_eq] at h
  obtain ⟨⟨⟨⟨h1, h2⟩, h3⟩, h4⟩, h5⟩ := h
  refine ⟨h1, h2, ?_, ?_, ?_, ?_, ?_, ?_, ?_, ?_, ?_, ?_, basesOk_spec _ h5⟩
  · intro i hi
    exact Option.isNone_iff_eq_none.1 (h3 i hi).1.1.1.1
  · intro i hi o ho
    exact decl ((h3 i hi).1.1.1.2 o ho)
  · intro i hi ops rd hk o ho
    have := (h3 i hi).2
    simp only [readsOk, hk, List.all_eq_true, List.contains_iff_mem] at this
    exact this o ho
  · intro i hi b hb
    exact label_of ((h3 i hi).1.1.2 b hb)
  · intro i hi args hk o ho hA
    have := (h3 i hi).1.2
    simp only [phiOk, hk, List.all_eq_true] at this
    rw [hk] at ho
    obtain ⟨a, ha, rfl⟩ := List.mem_map.1 ho
    have := this a ha
    simp only [Bool.and_eq_true, Option.isNone_iff_eq_none, bne_iff_ne, List.all_eq_true, Bool.or_eq_true] at this
    rcases hA with h | h | ⟨u, hu, e, b, idx, hb⟩
    · rw [this.1.1] at h; cases h
    · exact this.1.2 h
    · rcases this.2 u hu with h | h
      · exact h e
      · rw [hb] at h; cases h
  · intro B hB o ho
    exact decl ((h4 B hB).1.1 o ho)
  · intro B hB t ht
    exact label_of ((h4 B hB).1.2 t ht)
  · intro B hB g hg t ht
    have := (h4 B hB).2
    cases g with
    | sel m =>
      simp only [mergeOk, hg, Bool.and_eq_true] at this
      simp only [Merge.labels, List.mem_singleton] at ht
      subst ht
      exact label_of this.1
    | loop m k =>
      simp only [mergeOk, hg, Bool.and_eq_true] at this
      simp only [Merge.labels, List.mem_cons, List.not_mem_nil, or_false] at ht
      rcases ht with rfl | rfl
      · exact label_of this.1.1
      · exact label_of this.1.2
  · intro B hB m hg
    have := (h4 B hB).2
    simp only [mergeOk, hg, Bool.and_eq_true] at this
    cases ht : B.term with
    | choice c ts => exact ⟨c, ts, rfl⟩
    | _ => rw [ht] at this; exact absurd this.2 (by simp)
  · intro B hB m k hg he
    have := (h4 B hB).2
    simp only [mergeOk, hg, Bool.and_eq_true, he] at this
    exact absurd this.2 (by simp)

theorem good_valid : Valid good := validB_spec (by decide +kernel)

/-! ## Structured control flow, by looking -/

def insideB (F : Func) (h b : Id) : Bool :=
  F.order.any (fun H => H.id == h && match H.merge with
    | some g => decide (pos F h < pos F b) && decide (pos F b < pos F g.block)
    | none => false)

theorem inside_iff {F : Func} {h b : Id} : Inside F h b ↔ insideB F h b = true := by
  simp only [Inside, insideB, List.any_eq_true, Bool.and_eq_true, beq_iff_eq]
  constructor
  · rintro ⟨H, hH, e, g, hg, h1, h2⟩
    exact ⟨H, hH, e, by rw [hg]; simp [h1, h2]⟩
  · rintro ⟨H, hH, e, h⟩
    cases hg : H.merge with
    | none => rw [hg] at h; cases h
    | some g =>
      rw [hg] at h
      simp only [Bool.and_eq_true, decide_eq_true_eq] at h
      exact ⟨H, hH, e, g, hg, h.1, h.2⟩

def structuredB (F : Func) : Bool :=
  F.order.all (fun H => match H.merge with
    | none => true
    | some g => decide (pos F H.id < pos F g.block) &&
      F.order.all (fun K => match K.merge with
        | none => true
        | some k => !insideB F H.id K.id || decide (pos F k.block < pos F g.block)) &&
      F.order.all (fun B => B.term.targets.all (fun t =>
        !(H.id == B.id || insideB F H.id B.id) || t == H.id || insideB F H.id t || t == g.block ||
        F.order.any (fun O => insideB F O.id H.id && match O.merge with
          | none => false
          | some k => t == k.block || match k with
            | .sel _ => false
            | .loop _ c => t == c && F.order.all (fun L => !L.isLoop || !(L.id == B.id || insideB F L.id B.id) ||
              !insideB F O.id L.id)))) &&
      F.order.all (fun B => !B.term.targets.contains H.id || !(H.id == B.id || insideB F H.id B.id) || H.isLoop))

theorem structuredB_spec {F : Func} (h : structuredB F = true) : Structured F := by
  simp only [structuredB, List.all_eq_true] at h
  have hm : ∀ H ∈ F.order, ∀ g, H.merge = some g → _ := fun H hH g hg => by
    have := h H hH
    rw [hg] at this
    simp only [Bool.and_eq_true, decide_eq_true_eq, List.all_eq_true] at this
    exact this
  refine ⟨fun H hH g hg => (hm H hH g hg).1.1.1, ?_, ?_, ?_⟩
  · intro H hH g hg K hK k hk hi
    have := (hm H hH g hg).1.1.2 K hK
    rw [hk, inside_iff.1 hi] at this
    simpa using this
  · intro B hB t ht H hH g hg hr h1 h2
    have := (hm H hH g hg).1.2 B hB t ht
    have hr' : (H.id == B.id || insideB F H.id B.id) = true := by
      rcases hr with e | hi
      · simp [e]
      · simp [inside_iff.1 hi]
    have h2' : insideB F H.id t = false := by
      cases hx : insideB F H.id t with
      | false => rfl
      | true => exact absurd (inside_iff.2 hx) h2
    have h1' : (t == H.id) = false := by simpa using h1
    rw [hr', h1', h2'] at this
    simp only [Bool.not_true, Bool.false_or, Bool.or_eq_true, beq_iff_eq, List.any_eq_true, Bool.and_eq_true] at this
    rcases this with e | ⟨O, hO, hi, hx⟩
    · exact .inl e
    · refine .inr ⟨O, hO, inside_iff.2 hi, ?_⟩
      cases hk : O.merge with
      | none => rw [hk] at hx; cases hx
      | some k =>
        rw [hk] at hx
        simp only [Bool.or_eq_true, beq_iff_eq] at hx
        rcases hx with e | hx
        · exact .inl ⟨k, rfl, e⟩
        · cases k with
          | sel m => cases hx
          | loop m c =>
            simp only [Bool.and_eq_true, beq_iff_eq, List.all_eq_true] at hx
            obtain ⟨rfl, hx⟩ := hx
            refine .inr ⟨m, rfl, ?_⟩
            intro L hL hlp hLB hin
            have := hx L hL
            have hLB' : (L.id == B.id || insideB F L.id B.id) = true := by
              rcases hLB with e | hi
              · simp [e]
              · simp [inside_iff.1 hi]
            rw [hlp, hLB', inside_iff.1 hin] at this
            cases this
  · intro B hB H hH ht hne hr
    cases hg : H.merge with
    | none => exact absurd hg hne
    | some g =>
      have := (hm H hH g hg).2 B hB
      have hr' : (H.id == B.id || insideB F H.id B.id) = true := by
        rcases hr with e | hi
        · simp [e]
        · simp [inside_iff.1 hi]
      rw [hr', List.contains_iff_mem.2 ht] at this
      simpa using this

theorem good_structured : Structured good := structuredB_spec (by decide +kernel)

/-! ## A meaning -/

def num : Val Nat Unit → Nat
  | .num x => x
  | .ptr _ _ => 0

/-- Sums; every instruction with an effect shows its operands and what it can read. -/
def sem (consts : List Id) : Sem Nat Unit Nat (List Nat) where
  start i := if consts.contains i then some (.num i) else none
  here := ()
  mem _ := 0
  value i xs x := x = i + (xs.map num).sum
  extend _ _ _ _ := True
  get _ c _ x := x = c
  set _ _ _ x := x
  eff i xs rs m x m' e := m' = m ∧ x = i ∧
    e = xs.map num ++ rs.map (fun r => match r with | .num _ => 0 | .ptr v _ => m v)
  choose _ _ _ := True

theorem sem_fits {F : Func} (h : ∀ i ∈ F.insts, i.id ∉ F.consts) : (sem F.consts).Fits F := by
  refine ⟨?_, ?_, ?_⟩
  · intro i v q hx
    simp only [sem] at hx
    split at hx <;> cases hx
  · intro i hi
    simp [sem, h i hi]
  · rintro i xs rs m x m' e m₂ A ⟨rfl, rfl, rfl⟩ hA hrs hm
    refine ⟨m₂, ⟨rfl, rfl, ?_⟩, hm⟩
    congr 1
    apply List.map_congr_left
    intro r hr
    cases r with
    | num _ => rfl
    | ptr v q => exact hm v (hrs v q hr)

theorem good_fits : (sem good.consts).Fits good := sem_fits (by decide)

theorem good_phis : PhisComplete good := by
  have h : ∀ B ∈ good.order, ∀ T ∈ good.order, T.id ∈ B.term.targets → ∀ i ∈ T.insts,
      (match i.kind with
        | .phi args => args.any (fun a => a.2 == B.id && args.all (fun a' => a'.2 != B.id || a'.1 == a.1))
        | _ => true) = true := by decide
  intro B hB T hT ht i hi args hk
  have := h B hB T hT ht i hi
  rw [hk] at this
  simp only [List.any_eq_true, Bool.and_eq_true, beq_iff_eq, List.all_eq_true, Bool.or_eq_true, bne_iff_ne] at this
  obtain ⟨⟨o, b⟩, ho, rfl, hx⟩ := this
  refine ⟨o, ho, fun o' ho' => ?_⟩
  rcases hx _ ho' with h | h
  · exact absurd rfl h
  · exact h

/-! ## An endless loop -/

/-- Block 2 is the header of a loop nothing leaves; block 4 would return. -/
def endless : Func where
  order := [⟨1, [], none, .br 2⟩, ⟨2, [], some (.loop 4 3), .br 3⟩, ⟨3, [], none, .br 2⟩, ⟨4, [], none, .exit []⟩]
  vars := []
  params := []
  consts := []
  isEntry := true
  isVoid := true

def endlessAfter : Func := { endless with
  order := [⟨1, [], none, .br 2⟩, ⟨2, [], none, .br 4⟩, ⟨3, [], none, .br 2⟩, ⟨4, [], none, .exit []⟩] }

theorem endless_run : endless.run = some endlessAfter :=
  run_eq (F := endless) (n := 100) (o := endlessAfter.order) (by decide +kernel)

theorem endless_valid : Valid endless := validB_spec (by decide +kernel)
theorem endless_structured : Structured endless := structuredB_spec (by decide +kernel)
theorem endless_fits : (sem endless.consts).Fits endless := sem_fits (by decide)

theorem endless_before {c : State Nat Unit Nat (List Nat)} (h : Reach endless (sem endless.consts) c) :
    ∃ b env m tr, c = .run b [] env m tr ∧ (b = 1 ∨ b = 2 ∨ b = 3) := by
  induction h with
  | @start b bs ho =>
    cases ho
    exact ⟨1, _, _, _, rfl, .inl rfl⟩
  | step _ hst ih =>
    obtain ⟨b, env, m, tr, rfl, hb⟩ := ih
    cases hst with
    | @jump _ B t T _ env₁ _ _ hB hgo ht _ _ =>
      rcases hb with rfl | rfl | rfl <;> cases hB <;> cases hgo <;> cases ht
      · exact ⟨2, _, _, _, rfl, .inr (.inl rfl)⟩
      · exact ⟨3, _, _, _, rfl, .inr (.inr rfl)⟩
      · exact ⟨2, _, _, _, rfl, .inr (.inl rfl)⟩
    | exit hB hlv =>
      rcases hb with rfl | rfl | rfl <;> cases hB <;> cases hlv

theorem endless_after : ∃ m, Reach endlessAfter (sem endless.consts) (.done [] m []) := by
  refine ⟨fun _ => 0, ?_⟩
  refine .step (c := .run 4 [] (fun _ => none) _ []) (.step (c := .run 2 [] (fun _ => none) _ [])
    (.step (c := .run 1 [] (fun _ => none) _ []) ?_
      (.jump (B := ⟨1, [], none, .br 2⟩) (t := 2) (T := ⟨2, [], none, .br 4⟩) rfl .br rfl (by simp) (by simp)))
      (.jump (B := ⟨2, [], none, .br 4⟩) (t := 4) (T := ⟨4, [], none, .exit []⟩) rfl .br rfl (by simp) (by simp)))
    (.exit (B := ⟨4, [], none, .exit []⟩) rfl (.exit rfl))
  have := Reach.start (F := endlessAfter) (S := sem endless.consts) (b := ⟨1, [], none, .br 2⟩) rfl
  exact this

/-! ## A function that always finishes -/

/-- Block 2, in a selection, computes something nobody uses. -/
def small : Func where
  order := [⟨1, [], some (.sel 3), .choice 201 [2, 3]⟩, ⟨2, [⟨10, .pure [200]⟩], none, .br 3⟩,
    ⟨3, [], none, .exit [200]⟩]
  vars := []
  params := []
  consts := [200, 201]
  isEntry := true
  isVoid := false

def smallAfter : Func := { small with
  order := [⟨1, [], none, .br 3⟩, ⟨2, [⟨10, .pure [200]⟩], none, .br 3⟩, ⟨3, [], none, .exit [200]⟩] }

theorem small_run : small.run = some smallAfter :=
  run_eq (F := small) (n := 100) (o := smallAfter.order) (by decide +kernel)

theorem small_valid : Valid small := validB_spec (by decide +kernel)
theorem small_structured : Structured small := structuredB_spec (by decide +kernel)
theorem small_fits : (sem small.consts).Fits small := sem_fits (by decide)

theorem small_phis : PhisComplete small := by
  have h : ∀ T ∈ small.order, ∀ i ∈ T.insts, (match i.kind with | .phi _ => false | _ => true) = true := by decide
  intro B _ T hT _ i hi args hk
  have := h T hT i hi
  rw [hk] at this
  cases this

/-- What is known at each point. -/
def Ok : State Nat Unit Nat (List Nat) → Prop
  | .run b r env _ _ => env 200 = some (.num 200) ∧ env 201 = some (.num 201) ∧
    ((b = 1 ∧ r = []) ∨ (b = 2 ∧ (r = [] ∨ r = [⟨10, .pure [200]⟩])) ∨ (b = 3 ∧ r = []))
  | .done _ _ _ => True

theorem small_ok {c : State Nat Unit Nat (List Nat)} (h : Reach small (sem small.consts) c) : Ok c := by
  induction h with
  | @start b bs ho =>
    cases ho
    exact ⟨rfl, rfl, .inl ⟨rfl, rfl⟩⟩
  | @step c d _ hst ih =>
    cases hst with
    | act hact =>
      obtain ⟨h1, h2, h3⟩ := ih
      rcases h3 with ⟨_, h⟩ | ⟨rfl, h | h⟩ | ⟨_, h⟩
      · cases h
      · cases h
      · cases h
        cases hact with
        | pure _ _ => exact ⟨by simp [define, h1], by simp [define, h2], .inr (.inl ⟨rfl, .inl rfl⟩)⟩
      · cases h
    | @jump _ B t T env env₁ _ _ hB hgo ht _ hoth =>
      obtain ⟨h1, h2, h3⟩ := ih
      have hk : env₁ 200 = env 200 ∧ env₁ 201 = env 201 := by
        have hnone : ∀ p ∈ T.insts, isPhi p = true → False := by
          have : ∀ T ∈ small.order, ∀ p ∈ T.insts, isPhi p = true → False := by decide
          exact this T (block_mem ht).1
        exact ⟨hoth _ (fun p hp hpp => (hnone p hp hpp).elim), hoth _ (fun p hp hpp => (hnone p hp hpp).elim)⟩
      refine ⟨by rw [hk.1, h1], by rw [hk.2, h2], ?_⟩
      have : ∀ T ∈ small.order, (T.id = 1 ∧ body T = []) ∨ (T.id = 2 ∧ (body T = [] ∨ body T = [⟨10, .pure [200]⟩])) ∨
        (T.id = 3 ∧ body T = []) := by decide
      have h := this T (block_mem ht).1
      rw [(block_mem ht).2] at h
      exact h
    | exit _ _ => trivial

theorem small_finishes {c : State Nat Unit Nat (List Nat)} (h : Reach small (sem small.consts) c) :
    ∃ xs m tr, Steps small (sem small.consts) c (.done xs m tr) := by
  have h3 : ∀ env m tr, env 200 = some (.num 200) → ∃ xs m' tr', Steps small (sem small.consts)
      (.run 3 [] env m tr) (.done xs m' tr') := fun env m tr h =>
    ⟨[.num 200], m, tr, .step (.exit (B := ⟨3, [], none, .exit [200]⟩) rfl (.exit (by simp [Reads, h]))) .refl⟩
  have h2 : ∀ env m tr, env 200 = some (.num 200) → ∃ xs m' tr', Steps small (sem small.consts)
      (.run 2 [] env m tr) (.done xs m' tr') := by
    intro env m tr h
    obtain ⟨xs, m', tr', hs⟩ := h3 env m tr h
    exact ⟨xs, m', tr', .step (.jump (B := ⟨2, [⟨10, .pure [200]⟩], none, .br 3⟩) (t := 3)
      (T := ⟨3, [], none, .exit [200]⟩) rfl .br rfl (by simp) (by simp)) hs⟩
  have hok := small_ok h
  cases c with
  | done xs m tr => exact ⟨xs, m, tr, .refl⟩
  | run b r env m tr =>
    obtain ⟨e1, e2, ⟨rfl, rfl⟩ | ⟨rfl, rfl | rfl⟩ | ⟨rfl, rfl⟩⟩ := hok
    · obtain ⟨xs, m', tr', hs⟩ := h3 env m tr e1
      exact ⟨xs, m', tr', .step (.jump (B := ⟨1, [], some (.sel 3), .choice 201 [2, 3]⟩) (t := 3)
        (T := ⟨3, [], none, .exit [200]⟩) rfl (.choice e2 (by simp) trivial) rfl (by simp) (by simp)) hs⟩
    · exact h2 env m tr e1
    · obtain ⟨xs, m', tr', hs⟩ := h2 (define env 10 (.num 210)) m tr (by simp [define, e1])
      refine ⟨xs, m', tr', .step (d := .run 2 [] (define env 10 (.num 210)) m (tr ++ [])) ?_ (by simpa using hs)⟩
      exact .act (.pure (xs := [.num 200]) (by simp [Reads, e1]) (by simp [sem, num]))
    · exact h3 env m tr e1

end Verif.Adce.Example
