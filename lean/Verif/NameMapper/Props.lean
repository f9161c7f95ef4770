import Verif.NameMapper.Model
/-
C16: friendly names.
-/
set_option linter.unusedSimpArgs false
set_option linter.unusedVariables false
namespace Verif.NameMapper

namespace Spec

/-- A name the assembler accepts after `%`: letters, digits and underscore. -/
def Lexical (n : Text) : Prop :=
  n ≠ [] ∧ ∀ c ∈ n, ('a' ≤ c ∧ c ≤ 'z') ∨ ('A' ≤ c ∧ c ≤ 'Z') ∨ ('0' ≤ c ∧ c ≤ '9') ∨ c = '_'

/-- The ids which an instruction defines or gives a name to. -/
def Mentions (i : Inst) (id : Nat) : Prop :=
  i.numOperands ≠ 0 ∧ ((∃ t, i.op = .name id t) ∨
    (i.resultId = id ∧ id ≠ 0 ∧ i.op ≠ .decorateOther ∧ (∀ t n, i.op ≠ .name t n) ∧
      (∀ t b, i.op ≠ .decorateBuiltIn t b)))

end Spec
open Spec

/-! ### Lemmas -/

theorem valid_lexical : ∀ c ∈ valid,
    ('a' ≤ c ∧ c ≤ 'z') ∨ ('A' ≤ c ∧ c ≤ 'Z') ∨ ('0' ≤ c ∧ c ≤ '9') ∨ c = '_' := by
  decide +kernel

theorem sanitize_lexical (s : Text) : Lexical (sanitize s) := by
  unfold sanitize
  split
  · exact ⟨by simp, by intro c hc; simp at hc; subst hc; simp⟩
  · rename_i h
    refine ⟨by simpa using h, ?_⟩
    intro c hc
    obtain ⟨a, _, rfl⟩ := List.mem_map.mp hc
    split
    · rename_i hv
      exact valid_lexical a (by simpa using hv)
    · simp

theorem toStr_chars (n : Nat) : ∀ c ∈ toStr n, '0' ≤ c ∧ c ≤ '9' := by
  intro c hc
  have hd := Nat.isDigit_of_mem_toDigits (b := 10) (by omega) (by omega) hc
  simp only [Char.isDigit, Bool.and_eq_true, decide_eq_true_eq] at hd
  exact hd

theorem toStr_ne_nil (n : Nat) : toStr n ≠ [] := by
  have := Nat.length_toDigits_pos (b := 10) (n := n)
  unfold toStr
  intro h
  rw [h] at this
  simp at this

theorem toStr_lexical (n : Nat) : Lexical (toStr n) :=
  ⟨toStr_ne_nil n, fun c hc => .inr (.inr (.inl (toStr_chars n c hc)))⟩

theorem toStr_inj {m n : Nat} (h : toStr m = toStr n) : m = n := by
  have h1 := Nat.ofDigitChars_ten_toDigits (n := m)
  have h2 := Nat.ofDigitChars_ten_toDigits (n := n)
  unfold toStr at h
  rw [h] at h1
  omega

theorem lexical_append {a b : Text} (ha : Lexical a) (hb : Lexical b) : Lexical (a ++ b) :=
  ⟨by simp [ha.1], fun c hc => by
    rcases List.mem_append.mp hc with h | h
    · exact ha.2 c h
    · exact hb.2 c h⟩

/-- The suffix loop ends: more candidates than names in use. -/
theorem pickName_some (used : List Text) (pre : Text) (index : Nat) :
    ∃ n k, pickName used pre (used.length + 1) index = some n ∧ n = pre ++ toStr k ∧ n ∉ used := by
  have key : ∀ fuel index, (∃ n k, pickName used pre fuel index = some n ∧ n = pre ++ toStr k ∧ n ∉ used) ∨
      (pickName used pre fuel index = none ∧ ∀ k, index ≤ k → k < index + fuel → pre ++ toStr k ∈ used) := by
    intro fuel
    induction fuel with
    | zero => intro index; right; exact ⟨rfl, fun k h1 h2 => by omega⟩
    | succ fuel ih =>
      intro index
      unfold pickName
      simp only
      by_cases h : used.contains (pre ++ toStr index) = true
      · rw [if_pos h]
        rcases ih (index + 1) with h1 | ⟨h1, h2⟩
        · exact .inl h1
        · refine .inr ⟨h1, fun k hk1 hk2 => ?_⟩
          by_cases hk : k = index
          · subst hk; simpa using h
          · exact h2 k (by omega) (by omega)
      · rw [if_neg h]
        exact .inl ⟨_, index, rfl, rfl, by simpa using h⟩
  rcases key (used.length + 1) index with h | ⟨_, h⟩
  · exact h
  · exfalso
    have hnd : ((List.range (used.length + 1)).map (fun j => pre ++ toStr (index + j))).Nodup := by
      apply List.Pairwise.map _ _ List.nodup_range
      intro a b hab he
      have := toStr_inj (List.append_cancel_left he)
      omega
    have hsub : ((List.range (used.length + 1)).map (fun j => pre ++ toStr (index + j))) ⊆ used := by
      intro n hn
      obtain ⟨j, hj, rfl⟩ := List.mem_map.mp hn
      have := List.mem_range.mp hj
      exact h (index + j) (by omega) (by omega)
    have := hnd.length_le_of_subset hsub
    simp at this
    omega

/-- The invariant: names are lexically valid, used, and no two ids share one. -/
structure Inv (s : State) : Prop where
  used : ∀ p ∈ s.names, p.2 ∈ s.used
  lexical : ∀ p ∈ s.names, Lexical p.2
  names : (s.names.map Prod.snd).Nodup

def Recorded (s : State) (id : Nat) : Prop := (s.names.lookup id).isSome = true

theorem lookup_append_some {l r : List (Nat × Text)} {id : Nat} {n : Text} (h : l.lookup id = some n) :
    (l ++ r).lookup id = some n := by
  induction l with
  | nil => cases h
  | cons p l ih =>
    obtain ⟨k, v⟩ := p
    rw [List.cons_append, List.lookup_cons] at *
    split <;> rename_i hk <;> rw [hk] at h
    · exact h
    · exact ih h

theorem lookup_append_none {l : List (Nat × Text)} {id : Nat} {n : Text} (h : (l.lookup id).isSome = false) :
    (l ++ [(id, n)]).lookup id = some n := by
  induction l with
  | nil => simp
  | cons p l ih =>
    obtain ⟨k, v⟩ := p
    rw [List.cons_append, List.lookup_cons] at *
    split <;> rename_i hk <;> rw [hk] at h
    · simp at h
    · exact ih h

theorem lookup_mem {l : List (Nat × Text)} {id : Nat} {n : Text} (h : l.lookup id = some n) : (id, n) ∈ l := by
  induction l with
  | nil => cases h
  | cons p l ih =>
    obtain ⟨k, v⟩ := p
    rw [List.lookup_cons] at h
    split at h <;> rename_i hk
    · cases h
      have : id = k := by simpa using hk
      subst this
      exact List.mem_cons_self ..
    · exact List.mem_cons_of_mem _ (ih h)

/-- One name: the call returns, keeps what was recorded, and records the id. -/
theorem saveName_spec (s : State) (id : Nat) (sug : Text) (hinv : Inv s) :
    ∃ s', saveName s id sug = some s' ∧ Inv s' ∧ Recorded s' id ∧
      (∀ x n, s.names.lookup x = some n → s'.names.lookup x = some n) := by
  unfold saveName
  by_cases h : (s.names.lookup id).isSome = true
  · rw [if_pos h]
    exact ⟨s, rfl, hinv, h, fun _ _ h => h⟩
  · rw [if_neg h]
    have hf : (s.names.lookup id).isSome = false := Bool.eq_false_iff.mpr h
    have add : ∀ name, Lexical name → name ∉ s.used →
        Inv ⟨s.names ++ [(id, name)], name :: s.used⟩ ∧ Recorded ⟨s.names ++ [(id, name)], name :: s.used⟩ id ∧
        (∀ x n, s.names.lookup x = some n → (s.names ++ [(id, name)]).lookup x = some n) := by
      intro name hl hu
      refine ⟨⟨?_, ?_, ?_⟩, ?_, fun x n hx => lookup_append_some hx⟩
      · intro p hp
        rcases List.mem_append.mp hp with hp | hp
        · exact List.mem_cons_of_mem _ (hinv.used p hp)
        · simp at hp; subst hp; exact List.mem_cons_self ..
      · intro p hp
        rcases List.mem_append.mp hp with hp | hp
        · exact hinv.lexical p hp
        · simp at hp; subst hp; exact hl
      · rw [List.map_append, List.nodup_append]
        refine ⟨hinv.names, by simp, ?_⟩
        intro a ha b hb
        simp at hb
        subst hb
        rintro rfl
        obtain ⟨p, hp, rfl⟩ := List.mem_map.mp ha
        exact hu (hinv.used p hp)
      · unfold Recorded
        simp only
        rw [lookup_append_none hf]; rfl
    have hbase : Lexical (if 256 < sug.length then toStr id else sanitize sug) := by
      split
      · exact toStr_lexical id
      · exact sanitize_lexical sug
    simp only
    generalize (if 256 < sug.length then toStr id else sanitize sug) = base at hbase ⊢
    by_cases hu : s.used.contains base = true
    · rw [if_pos hu]
      obtain ⟨n, k, hp, hn, hnu⟩ := pickName_some s.used (base ++ ['_']) 0
      rw [hp]
      have hl : Lexical n := by
        rw [hn]
        exact lexical_append (lexical_append hbase ⟨by simp, by simp⟩) (toStr_lexical k)
      exact ⟨_, rfl, add n hl hnu⟩
    · rw [if_neg hu]
      exact ⟨_, rfl, add base hbase (by simpa using hu)⟩

theorem parseInstruction_spec (s : State) (i : Inst) (hinv : Inv s) :
    ∃ s', parseInstruction s i = some s' ∧ Inv s' ∧
      (∀ id, Mentions i id → Recorded s' id) ∧
      (∀ x n, s.names.lookup x = some n → s'.names.lookup x = some n) := by
  obtain ⟨op, rid, nops⟩ := i
  unfold parseInstruction
  simp only
  by_cases hz : nops = 0
  · rw [if_pos hz]
    exact ⟨s, rfl, hinv, fun id hm => absurd hz hm.1, fun _ _ h => h⟩
  · rw [if_neg hz]
    -- instructions which record their result under some suggestion
    have gen : ∀ sug, (∀ t n, op ≠ .name t n) → ∃ s', saveName s rid sug = some s' ∧ Inv s' ∧
        (∀ id, Mentions ⟨op, rid, nops⟩ id → Recorded s' id) ∧
        (∀ x n, s.names.lookup x = some n → s'.names.lookup x = some n) := by
      intro sug hop
      obtain ⟨s', h1, h2, h3, h4⟩ := saveName_spec s rid sug hinv
      refine ⟨s', h1, h2, ?_, h4⟩
      rintro id ⟨_, ⟨t, ht⟩ | ⟨hr, _⟩⟩
      · exact absurd ht (hop _ _)
      · simp only at hr; subst hr; exact h3
    cases op with
    | name t n =>
      obtain ⟨s', h1, h2, h3, h4⟩ := saveName_spec s t n hinv
      refine ⟨s', h1, h2, ?_, h4⟩
      rintro id ⟨_, ⟨_, ht⟩ | ⟨_, _, _, hn, _⟩⟩
      · cases ht; exact h3
      · exact absurd rfl (hn t n)
    | decorateBuiltIn t b =>
      simp only [saveBuiltInName]
      cases hb : builtIns.lookup b with
      | none =>
        refine ⟨s, rfl, hinv, ?_, fun _ _ h => h⟩
        rintro id ⟨_, ⟨_, ht⟩ | ⟨_, _, _, _, hn⟩⟩
        · cases ht
        · exact absurd rfl (hn t b)
      | some nm =>
        obtain ⟨s', h1, h2, h3, h4⟩ := saveName_spec s t nm.toList hinv
        refine ⟨s', h1, h2, ?_, h4⟩
        rintro id ⟨_, ⟨_, ht⟩ | ⟨_, _, _, _, hn⟩⟩
        · cases ht
        · exact absurd rfl (hn t b)
    | decorateOther =>
      refine ⟨s, rfl, hinv, ?_, fun _ _ h => h⟩
      rintro id ⟨_, ⟨_, ht⟩ | ⟨_, _, hn, _, _⟩⟩
      · cases ht
      · exact absurd rfl hn
    | other =>
      simp only
      split
      · exact gen _ (by intro t n h; cases h)
      · rename_i hc
        refine ⟨s, rfl, hinv, ?_, fun _ _ h => h⟩
        rintro id ⟨_, ⟨_, ht⟩ | ⟨hr, hid, _, _, _⟩⟩
        · cases ht
        · simp only at hr
          subst hr
          unfold Recorded
          cases hl : (s.names.lookup rid).isSome with
          | true => rfl
          | false => exact absurd ⟨hid, hl⟩ hc
    | _ => exact gen _ (by intro t n h; cases h)

theorem build_spec (is : List Inst) : ∀ s, Inv s →
    ∃ s', build is s = some s' ∧ Inv s' ∧
      (∀ i ∈ is, ∀ id, Mentions i id → Recorded s' id) ∧
      (∀ x n, s.names.lookup x = some n → s'.names.lookup x = some n) := by
  induction is with
  | nil => intro s h; exact ⟨s, rfl, h, by simp, fun _ _ h => h⟩
  | cons i is ih =>
    intro s hinv
    obtain ⟨s1, h1, h2, h3, h4⟩ := parseInstruction_spec s i hinv
    obtain ⟨s2, g1, g2, g3, g4⟩ := ih s1 h2
    refine ⟨s2, by simp only [build, h1, g1], g2, ?_, fun x n h => g4 x n (h4 x n h)⟩
    intro j hj id hm
    rcases List.mem_cons.mp hj with rfl | hj
    · have := h3 id hm
      unfold Recorded at this ⊢
      obtain ⟨n, hn⟩ := Option.isSome_iff_exists.mp this
      rw [g4 id n hn]; rfl
    · exact g3 j hj id hm

theorem Inv.init : Inv State.empty := ⟨by simp [State.empty], by simp [State.empty], by simp [State.empty]⟩

theorem build_append (is js : List Inst) (s : State) :
    build (is ++ js) s = match build is s with
      | none => none
      | some s' => build js s' := by
  induction is generalizing s with
  | nil => rfl
  | cons i is ih =>
    simp only [List.cons_append, build]
    cases parseInstruction s i with
    | none => rfl
    | some s' => exact ih s'

/-! ### C16 -/

/-- For every sequence of parsed instructions: naming ends, every id an
    instruction defines or names is recorded, different recorded ids have different
    names, and every recorded name is lexically valid. -/
theorem friendlyNames_spec (is : List Inst) :
    ∃ s, build is State.empty = some s ∧
      (∀ i ∈ is, ∀ id, Mentions i id → Recorded s id) ∧
      (∀ a b, Recorded s a → Recorded s b → a ≠ b → nameForId s a ≠ nameForId s b) ∧
      (∀ a, Recorded s a → Lexical (nameForId s a)) := by
  obtain ⟨s, h1, hinv, h3, _⟩ := build_spec is State.empty Inv.init
  refine ⟨s, h1, h3, ?_, ?_⟩
  · intro a b ha hb hab he
    obtain ⟨n, hn⟩ := Option.isSome_iff_exists.mp ha
    obtain ⟨n', hn'⟩ := Option.isSome_iff_exists.mp hb
    simp only [nameForId, hn, hn'] at he
    subst he
    have m1 := lookup_mem hn
    have m2 := lookup_mem hn'
    have hnd := hinv.names
    obtain ⟨i, hi, e1⟩ := List.mem_iff_getElem.mp m1
    obtain ⟨j, hj, e2⟩ := List.mem_iff_getElem.mp m2
    have : i = j := by
      apply (List.getElem_inj (h₀ := by simpa using hi) (h₁ := by simpa using hj) hnd).mp
      simp [e1, e2]
    subst this
    rw [e1] at e2
    cases e2
    exact hab rfl
  · intro a ha
    obtain ⟨n, hn⟩ := Option.isSome_iff_exists.mp ha
    simp only [nameForId, hn]
    exact hinv.lexical _ (lookup_mem hn)

/-- A name once given does not change when more instructions are seen. -/
theorem friendlyNames_stable (is js : List Inst) (s s' : State) (h : build is State.empty = some s)
    (h' : build (is ++ js) State.empty = some s') (id : Nat) (hr : Recorded s id) :
    Recorded s' id ∧ nameForId s' id = nameForId s id := by
  obtain ⟨s1, h1, hinv, _, _⟩ := build_spec is State.empty Inv.init
  rw [h] at h1; cases h1
  obtain ⟨s2, h2, _, _, hk⟩ := build_spec js s hinv
  rw [build_append, h] at h'
  simp only at h'
  rw [h2] at h'; cases h'
  obtain ⟨n, hn⟩ := Option.isSome_iff_exists.mp hr
  have := hk id n hn
  exact ⟨by unfold Recorded; rw [this]; rfl, by simp [nameForId, this, hn]⟩

/-- A debug name of at most 256 characters is used as it is, up to invalid
    characters, if the id has no name yet and the name is still free. -/
theorem friendlyNames_opName (s : State) (id : Nat) (text : Text) (rid nops : Nat) (hn : nops ≠ 0)
    (hfree : ¬ Recorded s id) (hlen : text.length ≤ 256) (hu : sanitize text ∉ s.used) :
    ∃ s', parseInstruction s ⟨.name id text, rid, nops⟩ = some s' ∧ nameForId s' id = sanitize text := by
  unfold parseInstruction saveName
  unfold Recorded at hfree
  simp only
  have hl : ¬ 256 < text.length := by omega
  have hc : ¬ (s.used.contains (sanitize text) = true) := by simpa using hu
  simp only [hn, hl, hc, if_false]
  rw [if_neg hfree]
  exact ⟨_, rfl, by simp only [nameForId]; rw [lookup_append_none (Bool.eq_false_iff.mpr hfree)]⟩

/-- A name without invalid characters is not changed. -/
theorem sanitize_id (text : Text) (h : text ≠ []) (hv : ∀ c ∈ text, c ∈ valid) : sanitize text = text := by
  unfold sanitize
  rw [if_neg h]
  conv => rhs; rw [← List.map_id text]
  apply List.map_congr_left
  intro c hc
  simp [hv c hc]

/-! ### Examples -/

/-- Colliding debug names, one of them made to look like a generated suffix. -/
example : (build [⟨.name 1 "a".toList, 0, 2⟩, ⟨.name 2 "a_0".toList, 0, 2⟩, ⟨.name 3 "a".toList, 0, 2⟩,
      ⟨.name 4 "7".toList, 0, 2⟩, ⟨.typeInt 32 1, 5, 3⟩, ⟨.typeVector 5 4, 6, 3⟩, ⟨.other, 7, 2⟩,
      ⟨.constant 5 "-3".toList, 8, 3⟩] State.empty).map
    (fun s => [1, 2, 3, 4, 5, 6, 7, 8].map (fun i => String.ofList (nameForId s i))) =
    some ["a", "a_0", "a_1", "7", "int", "v4int", "7_0", "int_n3"] := by decide +kernel

/-- Ids never recorded get their number, which can be another id's name. -/
example : (build [⟨.name 4 "7".toList, 0, 2⟩] State.empty).map (fun s => (nameForId s 4, nameForId s 7)) =
    some (['7'], ['7']) := by decide +kernel

end Verif.NameMapper
