import Verif.Asm.Model
import Verif.ParseNumber.Props
/-!
C14: the assembler maps names to ids.
-/
set_option linter.unusedSimpArgs false
set_option linter.unusedVariables false
namespace Verif.Asm
open Verif.ParseNumber (Text)
open Verif.ParseNumber.Spec (Numeral)

namespace Spec

/-- A name is a number: `10`, `010`, `0x10`, ... -/
def Numeric (name : Text) (v : Nat) : Prop := (∃ hex, Numeral name hex v) ∧ v < 2 ^ 32

/-- The name of an id: letters, digits and underscores. -/
def ValidName (name : Text) : Prop := isValidId name = true

end Spec
open Spec

/-- The ids of a sequence of name uses. -/
def assignAll (preserve : List Nat) : Ids → List Text → Option (List Nat × Ids)
  | ids, [] => some ([], ids)
  | ids, n :: ns =>
    match assignOrGet preserve ids n with
    | none => none
    | some (id, ids1) =>
      match assignAll preserve ids1 ns with
      | none => none
      | some (rs, ids2) => some (id :: rs, ids2)

theorem validName_char {name : Text} (h : ValidName name) {c : Char} (hc : c ∈ name) :
    c = '_' ∨ isAlnum c = true := by
  unfold ValidName isValidId at h
  simp only [Bool.and_eq_true, List.all_eq_true, Bool.or_eq_true, beq_iff_eq] at h
  exact h.2 c hc

theorem parseU32_iff {name : Text} (h : ValidName name) (v : Nat) :
    parseU32 name = some v ↔ Numeric name v := by
  have hsp : ∀ c, name.head? = some c → ParseNumber.isSpace c = false := by
    intro c hc
    have hm : c ∈ name := List.mem_of_mem_head? hc
    rcases validName_char h hm with rfl | ha
    · rfl
    · cases hs : ParseNumber.isSpace c with
      | false => rfl
      | true =>
        unfold ParseNumber.isSpace at hs
        simp only [Bool.or_eq_true, beq_iff_eq] at hs
        rcases hs with ((((rfl | rfl) | rfl) | rfl) | rfl) | rfl <;> exact absurd ha (by decide)
  have hspec := fun w => ParseNumber.parseNumber_spec ParseNumber.u32 (by decide) name hsp w
  have hhead : ∀ c, c = '+' ∨ c = '-' → c ∉ name := by
    intro c hc hm
    rcases validName_char h hm with rfl | ha
    · rcases hc with hc | hc <;> exact absurd hc (by decide)
    · rcases hc with rfl | rfl <;> exact absurd ha (by decide)
  unfold parseU32 Numeric
  constructor
  · intro he
    obtain ⟨w, hw, hv⟩ := Option.map_eq_some_iff.mp he
    obtain ⟨ht, hr⟩ := (hspec w).mp hw
    unfold ParseNumber.Spec.Representable ParseNumber.u32 at hr
    simp only [Bool.false_eq_true, if_false] at hr
    cases ht with
    | plain hn =>
      simp only [Int.toNat_natCast] at hv
      subst hv
      exact ⟨⟨_, hn⟩, by have := hr.2; norm_cast at this⟩
    | plus hn => exact absurd (List.mem_cons_self ..) (hhead '+' (.inl rfl))
    | minus hn => exact absurd (List.mem_cons_self ..) (hhead '-' (.inr rfl))
  · rintro ⟨⟨hex, hn⟩, hlt⟩
    rw [(hspec (v : Int)).mpr ⟨.plain hn, ?_⟩]
    · simp
    · unfold ParseNumber.Spec.Representable ParseNumber.u32
      simp only [Bool.false_eq_true, if_false]
      exact ⟨by omega, by norm_cast⟩

/-! ### The invariant -/

/-- How many preserved ids are below `n`. -/
def below (P : List Nat) (n : Nat) : Nat := (P.filter (fun p => decide (p < n))).length

theorem below_le (P : List Nat) (n : Nat) : below P n ≤ P.length := List.length_filter_le ..

theorem below_mono (P : List Nat) {m n : Nat} (h : m ≤ n) : below P m ≤ below P n := by
  induction P with
  | nil => simp [below]
  | cons p P ih =>
    unfold below at ih ⊢
    simp only [List.filter_cons]
    by_cases h1 : p < m
    · have : p < n := by omega
      simp [h1, this]; exact ih
    · by_cases h2 : p < n
      · simp [h1, h2]; omega
      · simp [h1, h2]; exact ih

theorem below_succ_mem (P : List Nat) {n : Nat} (h : n ∈ P) : below P n + 1 ≤ below P (n + 1) := by
  induction P with
  | nil => cases h
  | cons p P ih =>
    by_cases hp : n = p
    · subst hp
      have := below_mono P (Nat.le_succ n)
      unfold below at this ⊢
      simp only [List.filter_cons, Nat.lt_irrefl, decide_false, Bool.false_eq_true, if_false,
        Nat.lt_succ_self, decide_true, if_true, List.length_cons]
      simp only [Nat.succ_eq_add_one] at this
      omega
    · have hm : n ∈ P := by
        rcases List.mem_cons.mp h with h | h
        · exact absurd h hp
        · exact h
      have := ih hm
      unfold below at this ⊢
      simp only [List.filter_cons]
      by_cases h1 : p < n
      · have : p < n + 1 := by omega
        simp [h1, this]; omega
      · have h2 : ¬ p < n + 1 := by omega
        simp [h1, h2]; omega

/-- The loop that skips preserved ids finds one, which is not preserved and at
    least `next`. -/
theorem freshId_spec (P : List Nat) (fuel next k : Nat) (hf : P.length < fuel + below P next)
    (hk : next ≤ k + below P next) (hlim : k + P.length < 2 ^ 32 - 1) :
    ∃ id, freshId P fuel next = some (id, id + 1) ∧ next ≤ id ∧ id ∉ P ∧ id ≤ k + below P id := by
  induction fuel generalizing next with
  | zero => have := below_le P next; omega
  | succ fuel ih =>
    have hb := below_le P next
    have hs : succ32 next = next + 1 := by
      unfold succ32
      rw [Nat.mod_eq_of_lt]
      omega
    unfold freshId
    split
    · rename_i hm
      rw [List.contains_iff_mem] at hm
      have := below_succ_mem P hm
      rw [hs]
      obtain ⟨id, h1, h2, h3, h4⟩ := ih (next + 1) (by omega) (by omega)
      exact ⟨id, h1, by omega, h3, h4⟩
    · rename_i hm
      refine ⟨next, by rw [hs], Nat.le_refl _, ?_, hk⟩
      intro h
      exact hm (by rw [List.contains_iff_mem]; exact h)

/-- What holds of the ids of a context at all times, after at most `n` names. -/
structure Inv (P : List Nat) (n : Nat) (ids : Ids) : Prop where
  len : ids.named.length ≤ n
  pos : 1 ≤ ids.next
  next : ids.next ≤ ids.named.length + 1 + below P ids.next
  range : ∀ e ∈ ids.named, 1 ≤ e.2 ∧ e.2 < ids.next ∧ e.2 < ids.bound ∧ e.2 ∉ P
  inj : ∀ a ∈ ids.named, ∀ b ∈ ids.named, a.2 = b.2 → a.1 = b.1
  bound : 1 ≤ ids.bound ∧ ids.bound < 2 ^ 32

theorem inv_init (P : List Nat) : Inv P 0 .init where
  len := by simp [Ids.init]
  pos := by simp [Ids.init]
  next := by simp [Ids.init]
  range := by simp [Ids.init]
  inj := by simp [Ids.init]
  bound := by simp [Ids.init]

theorem lookup_mem {α β : Type} [BEq α] [LawfulBEq α] {l : List (α × β)} {a : α} {b : β}
    (h : l.lookup a = some b) : (a, b) ∈ l := by
  induction l with
  | nil => cases h
  | cons e l ih =>
    obtain ⟨x, y⟩ := e
    rw [List.lookup_cons] at h
    split at h
    · rename_i heq
      cases h
      simp only [beq_iff_eq] at heq
      subst heq
      simp
    · exact List.mem_cons_of_mem _ (ih h)

/-- The name is one of the numbers to preserve. -/
def Spec.Preserved (P : List Nat) (name : Text) (v : Nat) : Prop := Numeric name v ∧ v ∈ P

/-- One use of a name. -/
theorem assign_spec {P : List Nat} {n : Nat} {ids : Ids} {name : Text} (hv : ValidName name)
    (hinv : Inv P n ids) (hn : n + P.length < 2 ^ 32 - 2) (hP : ∀ p ∈ P, p < 2 ^ 32 - 1) :
    ∃ id ids', assignOrGet P ids name = some (id, ids') ∧ Inv P (n + 1) ids' ∧
      ids.bound ≤ ids'.bound ∧ id < ids'.bound ∧
      (∀ e, e ∈ ids.named → e ∈ ids'.named) ∧
      (∀ x, (ids.named.lookup x).isSome → ids'.named.lookup x = ids.named.lookup x) ∧
      ((Preserved P name id ∧ ids'.named = ids.named) ∨
        ((∀ v, ¬ Preserved P name v) ∧ ids'.named.lookup name = some id)) := by
  unfold assignOrGet
  have hpres : ∀ v, (if P = [] then none else (parseU32 name).filter P.contains) = some v ↔
      Preserved P name v := by
    intro v
    unfold Preserved
    split
    · rename_i h; subst h; simp
    · rw [Option.filter_eq_some_iff, parseU32_iff hv, List.contains_iff_mem]
  cases hp : (if P = [] then none else (parseU32 name).filter P.contains) with
  | some v =>
    have hpv := (hpres v).mp hp
    have hlt := hP v hpv.2
    have hs : succ32 v = v + 1 := by unfold succ32; rw [Nat.mod_eq_of_lt]; omega
    refine ⟨v, _, rfl, ?_, ?_, ?_, fun e he => he, fun x hx => rfl, .inl ⟨hpv, rfl⟩⟩
    · rw [hs]
      refine ⟨by have := hinv.len; simp only; omega, hinv.pos, hinv.next, ?_, hinv.inj, ?_⟩
      · intro e he
        obtain ⟨h1, h2, h3, h4⟩ := hinv.range e he
        exact ⟨h1, h2, by simp only; omega, h4⟩
      · have := hinv.bound
        simp only
        omega
    · simp only; omega
    · simp only; rw [hs]; omega
  | none =>
    have hno : ∀ v, ¬ Preserved P name v := by
      intro v h
      rw [(hpres v).mpr h] at hp
      cases hp
    simp only
    cases hl : ids.named.lookup name with
    | some id =>
      simp only
      have hm := lookup_mem hl
      obtain ⟨h1, h2, h3, h4⟩ := hinv.range _ hm
      refine ⟨id, ids, rfl, ?_, Nat.le_refl _, h3, fun e he => he, fun x hx => rfl, .inr ⟨hno, hl⟩⟩
      exact { hinv with len := by have := hinv.len; omega }
    | none =>
      simp only
      have hb := below_le P ids.next
      have hlen := hinv.len
      obtain ⟨id, h1, h2, h3, h4⟩ := freshId_spec P (P.length + 1) ids.next (ids.named.length + 1)
        (by omega) hinv.next (by omega)
      have hbid := below_le P id
      have hidlt : id < 2 ^ 32 - 1 := by omega
      have hs : succ32 id = id + 1 := by unfold succ32; rw [Nat.mod_eq_of_lt]; omega
      rw [h1]
      refine ⟨id, _, rfl, ?_, ?_, ?_, ?_, ?_, .inr ⟨hno, ?_⟩⟩
      · rw [hs]
        have hpos := hinv.pos
        refine ⟨?_, ?_, ?_, ?_, ?_, ?_⟩
        · simp only [List.length_cons]; omega
        · simp only; omega
        · simp only [List.length_cons]
          have := below_mono P (Nat.le_succ id)
          simp only [Nat.succ_eq_add_one] at this
          omega
        · intro e he
          rcases List.mem_cons.mp he with rfl | he
          · exact ⟨by simp only; omega, by simp only; omega, by simp only; omega, h3⟩
          · obtain ⟨a1, a2, a3, a4⟩ := hinv.range e he
            exact ⟨a1, by simp only; omega, by simp only; omega, a4⟩
        · intro a ha b hb' hab
          rcases List.mem_cons.mp ha with rfl | ha <;> rcases List.mem_cons.mp hb' with rfl | hb'
          · rfl
          · have := (hinv.range b hb').2.1; simp only at hab; omega
          · have := (hinv.range a ha).2.1; simp only at hab; omega
          · exact hinv.inj a ha b hb' hab
        · have := hinv.bound
          simp only
          omega
      · simp only; omega
      · simp only; rw [hs]; omega
      · intro e he; exact List.mem_cons_of_mem _ he
      · intro x hx
        simp only [List.lookup_cons]
        split
        · rename_i heq
          simp only [beq_iff_eq] at heq
          subst heq
          rw [hl] at hx
          cases hx
        · rfl
      · simp [List.lookup_cons]

/-- What a sequence of uses gives. -/
theorem assignAll_spec {P : List Nat} (hP : ∀ p ∈ P, p < 2 ^ 32 - 1) (names : List Text) :
    ∀ (n : Nat) (ids : Ids), (∀ x ∈ names, ValidName x) → Inv P n ids →
      n + names.length + P.length < 2 ^ 32 - 1 →
    ∃ rs ids', assignAll P ids names = some (rs, ids') ∧ rs.length = names.length ∧
      Inv P (n + names.length) ids' ∧ ids.bound ≤ ids'.bound ∧
      (∀ x, (ids.named.lookup x).isSome → ids'.named.lookup x = ids.named.lookup x) ∧
      ∀ i (hi : i < names.length), ∃ r, rs[i]? = some r ∧ r < ids'.bound ∧
        (Preserved P names[i] r ∨ ((∀ v, ¬ Preserved P names[i] v) ∧ ids'.named.lookup names[i] = some r)) := by
  induction names with
  | nil =>
    intro n ids _ hinv _
    exact ⟨[], ids, rfl, rfl, hinv, Nat.le_refl _, fun _ _ => rfl, fun i hi => absurd hi (by simp)⟩
  | cons x names ih =>
    intro n ids hval hinv hlen
    simp only [List.length_cons] at hlen
    obtain ⟨id, ids1, h1, h2, h3, h4, h5, h6, h7⟩ :=
      assign_spec (hval x (by simp)) hinv (by omega) hP
    obtain ⟨rs, ids2, k1, k2, k3, k4, k5, k6⟩ := ih (n + 1) ids1
      (fun y hy => hval y (List.mem_cons_of_mem _ hy)) h2 (by omega)
    refine ⟨id :: rs, ids2, ?_, by simp [k2], ?_, by omega, ?_, ?_⟩
    · unfold assignAll
      rw [h1]
      simp only
      rw [k1]
    · simp only [List.length_cons]
      have : n + (names.length + 1) = n + 1 + names.length := by omega
      rw [this]
      exact k3
    · intro y hy
      have := h6 y hy
      rw [k5 y (by rw [this]; exact hy), this]
    · intro i hi
      cases i with
      | zero =>
        refine ⟨id, rfl, by omega, ?_⟩
        rcases h7 with ⟨h, _⟩ | ⟨h, hl⟩
        · exact .inl h
        · exact .inr ⟨h, by rw [List.getElem_cons_zero, k5 x (by rw [hl]; rfl), hl]⟩
      | succ i =>
        obtain ⟨r, a1, a2, a3⟩ := k6 i (by simpa using hi)
        exact ⟨r, by simpa using a1, a2, by simpa using a3⟩

theorem numeral_functional {s : Text} {h1 h2 : Bool} {a b : Nat}
    (ha : Numeral s h1 a) (hb : Numeral s h2 b) : a = b := by
  have := ParseNumber.integerText_functional (.plain ha) (.plain hb)
  omega

/-- C14.  In one assembly, whatever sequence of names is used (`names`, in the order
    of use) and whatever numbers are to be preserved (`P`), as long as there are ids
    for them: a name gets the same id each time; different names get different ids,
    unless both are numerals for the same preserved number; a preserved number gets
    itself; every other name gets an id other than 0 that is no preserved number; and
    the bound is above every id. -/
theorem namedIds_spec (P : List Nat) (names : List Text) (hP : ∀ p ∈ P, p < 2 ^ 32 - 1)
    (hval : ∀ x ∈ names, ValidName x) (hlen : names.length + P.length < 2 ^ 32 - 1) :
    ∃ rs ids, assignAll P .init names = some (rs, ids) ∧ rs.length = names.length ∧
      (∀ i j (hi : i < names.length) (hj : j < names.length), names[i] = names[j] → rs[i]? = rs[j]?) ∧
      (∀ i j (hi : i < names.length) (hj : j < names.length), rs[i]? = rs[j]? →
        names[i] = names[j] ∨ ∃ v ∈ P, Numeric names[i] v ∧ Numeric names[j] v) ∧
      (∀ i (hi : i < names.length) v, v ∈ P → Numeric names[i] v → rs[i]? = some v) ∧
      (∀ i (hi : i < names.length), (¬ ∃ v ∈ P, Numeric names[i] v) → ∃ r, rs[i]? = some r ∧ r ≠ 0 ∧ r ∉ P) ∧
      (∀ r ∈ rs, r < ids.bound) ∧ ids.bound < 2 ^ 32 := by
  obtain ⟨rs, ids, h1, h2, h3, h4, h5, h6⟩ := assignAll_spec hP names 0 .init hval (inv_init P) (by omega)
  refine ⟨rs, ids, h1, h2, ?_, ?_, ?_, ?_, ?_, h3.bound.2⟩
  · intro i j hi hj he
    obtain ⟨r, a1, a2, a3⟩ := h6 i hi
    obtain ⟨r', b1, b2, b3⟩ := h6 j hj
    rw [a1, b1]
    rw [← he] at b3
    rcases a3 with a3 | ⟨a3, a4⟩ <;> rcases b3 with b3 | ⟨b3, b4⟩
    · obtain ⟨⟨⟨_, ha⟩, _⟩, _⟩ := a3
      obtain ⟨⟨⟨_, hb⟩, _⟩, _⟩ := b3
      rw [numeral_functional ha hb]
    · exact absurd a3 (b3 r)
    · exact absurd b3 (a3 r')
    · rw [a4] at b4; exact b4
  · intro i j hi hj he
    obtain ⟨r, a1, a2, a3⟩ := h6 i hi
    obtain ⟨r', b1, b2, b3⟩ := h6 j hj
    rw [a1, b1] at he
    cases he
    rcases a3 with a3 | ⟨a3, a4⟩ <;> rcases b3 with b3 | ⟨b3, b4⟩
    · exact .inr ⟨r, a3.2, a3.1, b3.1⟩
    · exact absurd a3.2 (h3.range _ (lookup_mem b4)).2.2.2
    · exact absurd b3.2 (h3.range _ (lookup_mem a4)).2.2.2
    · exact .inl (h3.inj _ (lookup_mem a4) _ (lookup_mem b4) rfl)
  · intro i hi v hv hn
    obtain ⟨r, a1, a2, a3⟩ := h6 i hi
    rcases a3 with a3 | ⟨a3, a4⟩
    · obtain ⟨⟨_, ha⟩, _⟩ := a3.1
      obtain ⟨⟨_, hb⟩, _⟩ := hn
      rw [a1, numeral_functional ha hb]
    · exact absurd ⟨hn, hv⟩ (a3 v)
  · intro i hi hno
    obtain ⟨r, a1, a2, a3⟩ := h6 i hi
    rcases a3 with a3 | ⟨a3, a4⟩
    · exact absurd ⟨r, a3.2, a3.1⟩ hno
    · obtain ⟨c1, _, _, c4⟩ := h3.range _ (lookup_mem a4)
      exact ⟨r, a1, by simp only at c1; omega, c4⟩
  · intro r hr
    obtain ⟨i, hi, rfl⟩ := List.getElem_of_mem hr
    obtain ⟨r', a1, a2, a3⟩ := h6 i (by omega)
    rw [List.getElem?_eq_getElem hi] at a1
    cases a1
    exact a2

/-! ### Examples and deviations -/

/-- Four names, two of them numbers to preserve. -/
example : (assignAll [1, 5] .init ["main".toList, "5".toList, "x".toList, "main".toList]).map
    (fun r => (r.1, r.2.bound)) = some ([2, 5, 3, 2], 6) := by decide +kernel

example : Preserved [1, 5] "0x5".toList 5 :=
  ⟨⟨⟨true, .hex (x := 'x') (s := ['5']) (ds := [5]) (.inl rfl) (by simp)
    (.cons (by unfold ParseNumber.Spec.IsDigit; decide) .nil)⟩, by decide⟩, by simp⟩

/-- Two different names that are numerals for the same preserved number are one id
    (which the source text does not say). -/
theorem namedIds_alias :
    (assignAll [8] .init ["8".toList, "010".toList]).map (·.1) = some [8, 8] := by decide +kernel

/-- With numeric ids preserved, `%0` is given the id 0, which no module may use. -/
theorem namedIds_zero : (assignAll [0] .init ["0".toList]).map (·.1) = some [0] := by decide +kernel

/-- The bound overflows for the largest number: it stays at 1. -/
theorem namedIds_overflow :
    (assignAll [4294967295] .init ["4294967295".toList]).map (fun r => (r.1, r.2.bound)) =
      some ([4294967295], 1) := by decide +kernel

end Verif.Asm
