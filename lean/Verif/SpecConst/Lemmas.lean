import Verif.SpecConst.Model
import Verif.ParseNumber.Props
set_option linter.unusedSimpArgs false
set_option linter.unusedVariables false
namespace Verif.SpecConst
open Verif.ParseNumber

/-! ### Specification -/
namespace Spec

/-- The words of a text: its maximal runs of characters other than white space. -/
inductive Words : Text → List Text → Prop where
  | done {sp} : (∀ c ∈ sp, isSpace c = true) → Words sp []
  | word {sp w rest ws} : (∀ c ∈ sp, isSpace c = true) → w ≠ [] → (∀ c ∈ w, isSpace c = false) →
      (∀ c, rest.head? = some c → isSpace c = true) → Words rest ws →
      Words (sp ++ (w ++ rest)) (w :: ws)

/-- A word `<spec id>:<value>`. -/
def Entry (w : Text) (e : Int × Text) : Prop :=
  ∃ t, w = t ++ ':' :: e.2 ∧ ParseNumber.Spec.IntegerText t e.1 ∧ 0 ≤ e.1 ∧ e.1 < 2 ^ 32 ∧
    e.2 ≠ [] ∧ ':' ∉ e.2

/-- The entries written in a sequence of words. -/
inductive Entries : List Text → List (Int × Text) → Prop where
  | nil : Entries [] []
  | cons {w e ws es} : Entry w e → Entries ws es → Entries (w :: ws) (e :: es)

/-- The text denotes the list of pairs: it is empty, or it has at least one word;
    every word is an entry and no spec id occurs twice. -/
def Denotes (text : Text) (es : List (Int × Text)) : Prop :=
  (es = [] → text = []) ∧ (∃ ws, Words text ws ∧ Entries ws es) ∧ (es.map Prod.fst).Nodup

end Spec
open Spec

/-! ### Lemmas on the text parser -/

theorem takeWhile_append_of {p : Char → Bool} {a b : Text} (ha : ∀ c ∈ a, p c = true)
    (hb : ∀ c, b.head? = some c → p c = false) :
    (a ++ b).takeWhile p = a ∧ (a ++ b).dropWhile p = b := by
  induction a with
  | nil =>
    cases b with
    | nil => exact ⟨rfl, rfl⟩
    | cons c b => simp [hb c rfl]
  | cons c a ih =>
    obtain ⟨i1, i2⟩ := ih (fun c hc => ha c (List.mem_cons_of_mem _ hc))
    simp [ha c (List.mem_cons_self ..), i1, i2]

theorem dropWhile_head {p : Char → Bool} (s : Text) : ∀ c, (s.dropWhile p).head? = some c → p c = false := by
  intro c h
  induction s with
  | nil => cases h
  | cons a s ih =>
    rw [List.dropWhile_cons] at h
    split at h
    · exact ih h
    · rename_i hp
      simp only [List.head?_cons, Option.some.injEq] at h
      subst h
      simpa using hp

theorem takeWhile_all {p : Char → Bool} (s : Text) : ∀ c ∈ s.takeWhile p, p c = true := by
  intro c h
  induction s with
  | nil => cases h
  | cons a s ih =>
    rw [List.takeWhile_cons] at h
    split at h
    · rename_i hp
      cases h with
      | head => exact hp
      | tail _ h => exact ih h
    · cases h

/-- Integer texts contain no separator. -/
theorem digits_chars {base : Nat} (hb : base ≤ 16) {s : Text} {ds : List Nat} (h : ParseNumber.Spec.Digits base s ds) :
    ∀ c ∈ s, isSeparator c = false := by
  have key : ∀ d, d < 16 → isSeparator (Nat.digitChar d) = false ∧ isSeparator (Nat.digitChar d).toUpper = false := by
    decide
  induction h with
  | nil => intro c hc; cases hc
  | cons h1 _ ih =>
    intro c hc
    cases hc with
    | head =>
      have hlt := Nat.lt_of_lt_of_le h1.1 hb
      rcases h1.2 with rfl | rfl
      · exact (key _ hlt).1
      · exact (key _ hlt).2
    | tail _ hc => exact ih c hc

theorem numeral_chars {s : Text} {h : Bool} {n : Nat} (hn : ParseNumber.Spec.Numeral s h n) :
    ∀ c ∈ s, isSeparator c = false := by
  cases hn with
  | hex hx _ hd =>
    intro c hc
    rcases List.mem_cons.mp hc with rfl | hc
    · decide
    · rcases List.mem_cons.mp hc with rfl | hc
      · rcases hx with rfl | rfl <;> decide
      · exact digits_chars (by omega) hd c hc
  | octal hd =>
    intro c hc
    rcases List.mem_cons.mp hc with rfl | hc
    · decide
    · exact digits_chars (by omega) hd c hc
  | decimal hd _ => exact digits_chars (by omega) hd

theorem integerText_chars {s : Text} {v : Int} (h : ParseNumber.Spec.IntegerText s v) :
    ∀ c ∈ s, isSeparator c = false := by
  cases h with
  | plain hn => exact numeral_chars hn
  | plus hn =>
    intro c hc
    rcases List.mem_cons.mp hc with rfl | hc
    · decide
    · exact numeral_chars hn c hc
  | minus hn =>
    intro c hc
    rcases List.mem_cons.mp hc with rfl | hc
    · decide
    · exact numeral_chars hn c hc

theorem sep_space {c : Char} (h : isSeparator c = false) : isSpace c = false ∧ c ≠ ':' := by
  unfold isSeparator at h
  simp only [Bool.or_eq_false_iff, beq_eq_false_iff_ne] at h
  exact ⟨h.2, h.1⟩

theorem parseU32 (s : Text) (hs : ∀ c ∈ s, isSeparator c = false) (v : Int) :
    parseNumber u32 s = some v ↔ ParseNumber.Spec.IntegerText s v ∧ 0 ≤ v ∧ v < 2 ^ 32 := by
  have := parseNumber_spec u32 (by decide) s (by
    intro c hc
    exact (sep_space (hs c (List.mem_of_head? hc))).1) v
  simpa [ParseNumber.Spec.Representable, u32] using this

theorem lookup_isSome (m : List (Int × Text)) (id : Int) :
    (m.lookup id).isSome = true ↔ id ∈ m.map Prod.fst := by
  induction m with
  | nil => simp
  | cons e m ih =>
    obtain ⟨k, v⟩ := e
    rw [List.lookup_cons]
    by_cases h : id == k
    · simp only [h, Option.isSome_some, true_iff, List.map_cons, List.mem_cons]
      left; exact eq_of_beq h
    · have hne : id ≠ k := fun e => h (by simp [e])
      have hf : (id == k) = false := by simpa using h
      rw [hf]
      simp only [ih, List.map_cons, List.mem_cons, hne, false_or]

/-- One round of the loop, characterised. -/
theorem parseEntry_iff (map : StrMap) (str : Text) (m : StrMap) (r : Text) :
    parseEntry map str = some (m, r) ↔
      ∃ sp w rest id val, str = sp ++ (w ++ rest) ∧ (∀ c ∈ sp, isSpace c = true) ∧
        (∀ c ∈ w, isSpace c = false) ∧
        (∀ c, rest.head? = some c → isSeparator c = true) ∧
        Entry w (id, val) ∧ id ∉ map.map Prod.fst ∧ m = map ++ [(id, val)] ∧
        r = rest.dropWhile isSpace := by
  constructor
  · intro h
    unfold parseEntry at h
    simp only at h
    split at h
    · cases h
    · rename_i id hid
      split at h
      · cases h
      · rename_i hdup
        split at h
        · rename_i str' heq
          split at h
          · cases h
          · rename_i hval
            simp only [Option.some.injEq, Prod.mk.injEq] at h
            obtain ⟨rfl, rfl⟩ := h
            have e1 := (List.takeWhile_append_dropWhile (p := isSpace) (l := str)).symm
            have e2 := (List.takeWhile_append_dropWhile (p := fun c => !isSeparator c) (l := str.dropWhile isSpace)).symm
            have e3 := (List.takeWhile_append_dropWhile (p := fun c => !isSeparator c) (l := str')).symm
            have hidc : ∀ c ∈ (str.dropWhile isSpace).takeWhile (fun c => !isSeparator c), isSeparator c = false := by
              intro c hc
              have := takeWhile_all _ c hc
              simpa using this
            have hvc : ∀ c ∈ str'.takeWhile (fun c => !isSeparator c), isSeparator c = false := by
              intro c hc
              have := takeWhile_all _ c hc
              simpa using this
            obtain ⟨hi, hr⟩ := (parseU32 _ hidc id).mp hid
            refine ⟨str.takeWhile isSpace, (str.dropWhile isSpace).takeWhile (fun c => !isSeparator c) ++
              ':' :: str'.takeWhile (fun c => !isSeparator c), str'.dropWhile (fun c => !isSeparator c), id,
              str'.takeWhile (fun c => !isSeparator c), ?_, takeWhile_all _, ?_, ?_, ?_, ?_, rfl, rfl⟩
            · rw [heq, e3] at e2
              simp only [List.append_assoc, List.cons_append]
              conv => lhs; rw [e1, e2]
            · intro c hc
              rcases List.mem_append.mp hc with hc | hc
              · exact (sep_space (hidc c hc)).1
              · rcases List.mem_cons.mp hc with rfl | hc
                · decide
                · exact (sep_space (hvc c hc)).1
            · intro c hc
              have := dropWhile_head _ c hc
              simpa using this
            · exact ⟨_, rfl, hi, hr.1, hr.2, hval, fun hc => (sep_space (hvc _ hc)).2 rfl⟩
            · rw [← lookup_isSome]; exact hdup
        · cases h
  · rintro ⟨sp, w, rest, id, val, rfl, hsp, hw, hrest, ⟨t, rfl, hit, h0, h32, hval, hcol⟩, hdup, rfl, rfl⟩
    simp only at hw hit h0 h32 hval hcol
    have htc := integerText_chars hit
    have hvc : ∀ c ∈ val, isSeparator c = false := by
      intro c hc
      have h1 := hw c (by simp [hc])
      have h2 : c ≠ ':' := fun e => hcol (e ▸ hc)
      simp [isSeparator, h1, h2]
    have hhead : ∀ c, ((t ++ ':' :: val) ++ rest).head? = some c → isSpace c = false := by
      intro c hc
      apply hw c
      have : (t ++ ':' :: val).head? = some c := by
        cases t with
        | nil => simpa using hc
        | cons a t => simpa using hc
      exact List.mem_of_head? this
    obtain ⟨_, d1⟩ := takeWhile_append_of (p := isSpace) hsp hhead
    have e : (t ++ ':' :: val) ++ rest = t ++ (':' :: (val ++ rest)) := by simp
    obtain ⟨t2, d2⟩ := takeWhile_append_of (p := fun c => !isSeparator c) (a := t) (b := ':' :: (val ++ rest))
      (by intro c hc; simpa using htc c hc) (by intro c hc; cases hc; decide)
    obtain ⟨t3, d3⟩ := takeWhile_append_of (p := fun c => !isSeparator c) (a := val) (b := rest)
      (by intro c hc; simpa using hvc c hc) (by intro c hc; simpa using hrest c hc)
    have hid := (parseU32 t htc id).mpr ⟨hit, h0, h32⟩
    have hl : (map.lookup id).isSome = false := by
      rw [← Bool.not_eq_true, lookup_isSome]; exact hdup
    rw [e] at d1
    unfold parseEntry
    simp only [e, d1, t2, d2, hid, hl, Bool.false_eq_true, if_false, t3, d3]
    rw [if_neg hval]

theorem words_drop {s : Text} {ws : List Text} (hs : ∀ c, s.head? = some c → isSpace c = true) :
    Words s ws ↔ Words (s.dropWhile isSpace) ws := by
  have e := (List.takeWhile_append_dropWhile (p := isSpace) (l := s)).symm
  constructor
  · intro h
    cases h with
    | done h =>
      have : s.dropWhile isSpace = [] := by
        have := (takeWhile_append_of (p := isSpace) (a := s) (b := []) h (by simp)).2
        simpa using this
      rw [this]; exact .done (by simp)
    | @word sp w rest ws h1 h2 h3 h4 h5 =>
      have hh : ∀ c, (w ++ rest).head? = some c → isSpace c = false := by
        intro c hc
        cases w with
        | nil => exact absurd rfl h2
        | cons a w => simp at hc; exact h3 c (by simp [hc])
      rw [(takeWhile_append_of (p := isSpace) h1 hh).2]
      exact .word (sp := []) (by simp) h2 h3 h4 h5
  · intro h
    rw [e]
    generalize hd : s.dropWhile isSpace = d at h
    cases h with
    | done h =>
      refine .done ?_
      intro c hc
      rcases List.mem_append.mp hc with hc | hc
      · exact takeWhile_all _ c hc
      · exact h c hc
    | @word sp w rest ws h1 h2 h3 h4 h5 =>
      rw [← List.append_assoc]
      refine .word ?_ h2 h3 h4 h5
      intro c hc
      rcases List.mem_append.mp hc with hc | hc
      · exact takeWhile_all _ c hc
      · exact h1 c hc

/-- Reading one word gives the same words afterwards. -/
theorem entry_no_colon {w : Text} {e : Int × Text} (h : Entry w e) : w ≠ [] := by
  obtain ⟨t, rfl, _⟩ := h
  simp

/-- Two ways to read the first entry agree. -/
theorem words_cons {str : Text} {w : Text} {ws : List Text} (h : Words str (w :: ws)) :
    ∃ sp rest, str = sp ++ (w ++ rest) ∧ (∀ c ∈ sp, isSpace c = true) ∧ w ≠ [] ∧
      (∀ c ∈ w, isSpace c = false) ∧ (∀ c, rest.head? = some c → isSpace c = true) ∧ Words rest ws := by
  cases h with
  | word h1 h2 h3 h4 h5 => exact ⟨_, _, rfl, h1, h2, h3, h4, h5⟩

theorem parseLoop_iff (n : Nat) : ∀ (map : StrMap) (str : Text), str.length ≤ n →
    ((map.map Prod.fst).Nodup) → ∀ m,
    (parseLoop map str = some m ↔ ∃ es ws, (es = [] → str = []) ∧ Words str ws ∧ Entries ws es ∧
      m = map ++ es ∧ (m.map Prod.fst).Nodup) := by
  induction n with
  | zero =>
    intro map str hl hnd m
    have : str = [] := List.length_eq_zero_iff.mp (by omega)
    subst this
    rw [parseLoop, if_pos rfl]
    constructor
    · intro h; cases h
      exact ⟨[], [], fun _ => rfl, .done (by simp), .nil, by simp, hnd⟩
    · rintro ⟨es, ws, -, hw, he, rfl, -⟩
      generalize hs : ([] : Text) = s at hw
      cases hw with
      | done => cases he; simp
      | word _ hne =>
        simp only [List.nil_eq, List.append_eq_nil_iff] at hs
        exact absurd hs.2.1 hne
  | succ n ih =>
    intro map str hl hnd m
    by_cases hstr : str = []
    · subst hstr
      rw [parseLoop, if_pos rfl]
      constructor
      · intro h; cases h
        exact ⟨[], [], fun _ => rfl, .done (by simp), .nil, by simp, hnd⟩
      · rintro ⟨es, ws, -, hw, he, rfl, -⟩
        generalize hs : ([] : Text) = s at hw
        cases hw with
        | done => cases he; simp
        | word _ hne =>
          simp only [List.nil_eq, List.append_eq_nil_iff] at hs
          exact absurd hs.2.1 hne
    · have hstep : parseLoop map str = match parseEntry map str with
          | none => none
          | some (m, r) => parseLoop m r := by
        rw [parseLoop, if_neg hstr]
        split <;> rename_i heq <;> rw [heq]
      rw [hstep]
      constructor
      · intro h
        cases hpe : parseEntry map str with
        | none => rw [hpe] at h; cases h
        | some p =>
          obtain ⟨m1, r⟩ := p
          rw [hpe] at h
          simp only at h
          have hlen := parseEntry_length hpe
          obtain ⟨sp, w, rest, id, val, rfl, hsp, hw, hrest, hent, hdup, rfl, rfl⟩ := (parseEntry_iff _ _ _ _).mp hpe
          have hnd1 : ((map ++ [(id, val)]).map Prod.fst).Nodup := by
            rw [List.map_append, List.nodup_append]
            refine ⟨hnd, by simp, ?_⟩
            intro a ha b hb
            simp at hb
            subst hb
            rintro rfl
            exact hdup ha
          obtain ⟨es, ws, hemp, hws, hes, rfl, hndm⟩ := (ih _ _ (by omega) hnd1 m).mp h
          -- the remainder is empty or begins with white space
          have hrs : ∀ c, rest.head? = some c → isSpace c = true := by
            intro c hc
            have h1 := hrest c hc
            cases hsc : isSpace c with
            | true => rfl
            | false =>
              exfalso
              have hd : rest.dropWhile isSpace = rest := by
                cases rest with
                | nil => rfl
                | cons a rest => cases hc; rw [List.dropWhile_cons, hsc]; rfl
              have hcol : c = ':' := by
                unfold isSeparator at h1
                rw [hsc] at h1
                simpa using h1
              -- then the next entry begins with ':'
              rw [hd] at hws hemp
              cases hws with
              | done hall => rw [hall c (List.mem_of_head? hc)] at hsc; cases hsc
              | @word sp' w' rest' ws' q1 q2 q3 q4 q5 =>
                cases hes with
                | @cons _ e' _ es' hE _ =>
                  obtain ⟨t, rfl, hit, _⟩ := hE
                  have hsp0 : sp' = [] := by
                    cases sp' with
                    | nil => rfl
                    | cons a sp' =>
                      simp only [List.cons_append, List.head?_cons, Option.some.injEq] at hc
                      rw [← hc, q1 a (List.mem_cons_self ..)] at hsc
                      cases hsc
                  subst hsp0
                  have htc := integerText_chars hit
                  cases t with
                  | nil =>
                    obtain ⟨k, v⟩ := e'
                    simp only at hit
                    generalize hk : ([] : Text) = z at hit
                    cases hit with
                    | plain hn =>
                      obtain ⟨_, _, he, _⟩ := numeral_head hn
                      rw [← hk] at he
                      cases he
                    | plus => cases hk
                    | minus => cases hk
                  | cons a t =>
                    simp only [List.nil_append, List.cons_append, List.head?_cons, Option.some.injEq] at hc
                    have := htc a (List.mem_cons_self ..)
                    rw [hc, hcol] at this
                    revert this; decide
          refine ⟨(id, val) :: es, w :: ws, by simp, ?_, .cons hent hes, by simp, hndm⟩
          exact .word hsp (entry_no_colon hent) hw hrs ((words_drop hrs).mpr hws)
      · rintro ⟨es, ws, hemp, hws, hes, rfl, hndm⟩
        cases hes with
        | nil => exact absurd (hemp rfl) hstr
        | @cons w e ws es hent hes =>
          obtain ⟨id, val⟩ := e
          obtain ⟨sp, rest, rfl, hsp, hne, hw, hrs, hws⟩ := words_cons hws
          have hdup : id ∉ map.map Prod.fst := by
            rw [List.map_append, List.nodup_append] at hndm
            intro hmem
            exact hndm.2.2 id hmem id (by simp) rfl
          have hpe : parseEntry map (sp ++ (w ++ rest)) = some (map ++ [(id, val)], rest.dropWhile isSpace) :=
            (parseEntry_iff _ _ _ _).mpr ⟨sp, w, rest, id, val, rfl, hsp, hw,
              fun c hc => by simp [isSeparator, hrs c hc], hent, hdup, rfl, rfl⟩
          have hlen := parseEntry_length hpe
          rw [hpe]
          simp only
          have hassoc : map ++ (id, val) :: es = (map ++ [(id, val)]) ++ es := by simp
          rw [hassoc] at hndm ⊢
          have hnd1 : ((map ++ [(id, val)]).map Prod.fst).Nodup := by
            rw [List.map_append] at hndm
            exact (List.nodup_append.mp hndm).1
          refine (ih _ _ (by omega) hnd1 _).mpr ⟨es, ws, ?_, (words_drop hrs).mp hws, hes, rfl, hndm⟩
          rintro rfl
          cases hes
          cases hws with
          | done hall =>
            have := (takeWhile_append_of (p := isSpace) (a := rest) (b := []) hall (by simp)).2
            simpa using this

end Verif.SpecConst
