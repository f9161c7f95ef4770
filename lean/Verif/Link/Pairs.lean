import Verif.Link.Spec
/-!
C37: imports and exports.
-/
set_option linter.unusedSimpArgs false
set_option linter.unusedVariables false
namespace Verif.Link
open Verif.StringLit (Word Byte)
open Verif.Ir
open Spec

/-- The symbols declared by a list of annotations, in order. -/
inductive Spec.Symbols (m : Module) (builtIn : Word → Bool) : List Inst → List (Word × Info) → Prop where
  | nil : Symbols m builtIn [] []
  | skip {d ds l} : symbolOf m builtIn d = .ok none → Symbols m builtIn ds l → Symbols m builtIn (d :: ds) l
  | cons {d ds e l} : symbolOf m builtIn d = .ok (some e) → Symbols m builtIn ds l →
      Symbols m builtIn (d :: ds) (e :: l)

def addAll (t : Tables) (l : List (Word × Info)) : Tables := l.foldl (fun t e => addSymbol t e.1 e.2) t

theorem collect_ok {m : Module} {builtIn : Word → Bool} {ds : List Inst} {t t' : Tables} :
    collect m builtIn ds t = .ok t' ↔ ∃ l, Symbols m builtIn ds l ∧ t' = addAll t l := by
  induction ds generalizing t with
  | nil =>
    constructor
    · intro h; cases h; exact ⟨[], .nil, rfl⟩
    · rintro ⟨l, hl, rfl⟩; cases hl; rfl
  | cons d ds ih =>
    unfold collect
    cases hs : symbolOf m builtIn d with
    | err =>
      refine ⟨fun h => (by cases h), ?_⟩
      rintro ⟨l, hl, rfl⟩
      cases hl with
      | skip h _ => rw [hs] at h; cases h
      | cons h _ => rw [hs] at h; cases h
    | fault =>
      refine ⟨fun h => (by cases h), ?_⟩
      rintro ⟨l, hl, rfl⟩
      cases hl with
      | skip h _ => rw [hs] at h; cases h
      | cons h _ => rw [hs] at h; cases h
    | ok o =>
      cases o with
      | none =>
        simp only
        rw [ih]
        constructor
        · rintro ⟨l, hl, rfl⟩; exact ⟨l, .skip hs hl, rfl⟩
        · rintro ⟨l, hl, rfl⟩
          cases hl with
          | skip h hl => exact ⟨l, hl, rfl⟩
          | cons h _ => rw [hs] at h; cases h
      | some e =>
        obtain ⟨k, i⟩ := e
        simp only
        rw [ih]
        constructor
        · rintro ⟨l, hl, rfl⟩; exact ⟨_, .cons hs hl, rfl⟩
        · rintro ⟨l, hl, rfl⟩
          cases hl with
          | skip h hl => rw [hs] at h; cases h
          | cons h hl =>
            rw [hs] at h
            cases h
            exact ⟨_, hl, rfl⟩

/-! ### The tables -/

theorem lookup_pushExport (n x : List Byte) (i : Info) (ex : List (List Byte × List Info)) :
    ((pushExport n i ex).lookup x).getD [] = (ex.lookup x).getD [] ++ (if x = n then [i] else []) := by
  induction ex with
  | nil =>
    unfold pushExport
    by_cases h : x = n
    · simp [h, List.lookup_cons]
    · have : (x == n) = false := by simpa using h
      simp [h, List.lookup_cons, this]
  | cons e ex ih =>
    obtain ⟨k, is⟩ := e
    unfold pushExport
    by_cases h : k = n
    · subst h
      simp only [if_true, List.lookup_cons]
      by_cases hx : x = k
      · subst hx; simp
      · have : (x == k) = false := by simpa using hx
        simp [this, hx]
    · simp only [h, if_false, List.lookup_cons]
      by_cases hx : x = k
      · subst hx; simp [h]
      · have : (x == k) = false := by simpa using hx
        simp [this, ih]

theorem isNone_pushExport (n x : List Byte) (i : Info) (ex : List (List Byte × List Info)) :
    ((pushExport n i ex).lookup x).isNone = ((ex.lookup x).isNone && decide (x ≠ n)) := by
  induction ex with
  | nil =>
    unfold pushExport
    by_cases h : x = n
    · simp [h, List.lookup_cons]
    · have : (x == n) = false := by simpa using h
      simp [h, List.lookup_cons, this]
  | cons e ex ih =>
    obtain ⟨k, is⟩ := e
    unfold pushExport
    by_cases h : k = n
    · subst h
      simp only [if_true, List.lookup_cons]
      by_cases hx : x = k
      · subst hx; simp
      · have : (x == k) = false := by simpa using hx
        simp [this, hx]
    · simp only [h, if_false, List.lookup_cons]
      by_cases hx : x = k
      · subst hx; simp [h]
      · have : (x == k) = false := by simpa using hx
        simp only [this]
        exact ih

theorem keys_pushExport (n : List Byte) (i : Info) (ex : List (List Byte × List Info)) :
    (pushExport n i ex).map (·.1) = if n ∈ ex.map (·.1) then ex.map (·.1) else ex.map (·.1) ++ [n] := by
  induction ex with
  | nil => simp [pushExport]
  | cons e ex ih =>
    obtain ⟨k, is⟩ := e
    unfold pushExport
    by_cases h : k = n
    · subst h; simp
    · have h' : ¬ n = k := fun he => h he.symm
      simp only [h, if_false, List.map_cons, ih, List.mem_cons, h', false_or]
      split <;> simp

theorem nodup_pushExport {n : List Byte} {i : Info} {ex : List (List Byte × List Info)}
    (h : (ex.map (·.1)).Nodup) : ((pushExport n i ex).map (·.1)).Nodup := by
  rw [keys_pushExport]
  split
  · exact h
  · rename_i hn
    rw [List.nodup_append]
    refine ⟨h, by simp, ?_⟩
    intro a ha b hb
    simp only [List.mem_singleton] at hb
    subst hb
    intro he
    subst he
    exact hn ha

theorem lookup_of_mem {α β : Type} [BEq α] [LawfulBEq α] {l : List (α × β)} (h : (l.map (·.1)).Nodup)
    {e : α × β} (he : e ∈ l) : l.lookup e.1 = some e.2 := by
  induction l with
  | nil => cases he
  | cons f l ih =>
    obtain ⟨k, v⟩ := f
    simp only [List.map_cons, List.nodup_cons] at h
    rw [List.lookup_cons]
    rcases List.mem_cons.mp he with rfl | he
    · simp
    · have hne : (e.1 == k) = false := by
        rw [beq_eq_false_iff_ne]
        intro hk
        exact h.1 (hk ▸ List.mem_map_of_mem (f := (·.1)) he)
      rw [hne]
      exact ih h.2 he

theorem mem_of_lookup {α β : Type} [BEq α] [LawfulBEq α] {l : List (α × β)} {a : α} {b : β}
    (h : l.lookup a = some b) : (a, b) ∈ l := by
  induction l with
  | nil => cases h
  | cons e l ih =>
    obtain ⟨x, y⟩ := e
    rw [List.lookup_cons] at h
    split at h
    · rename_i heq
      cases h
      simp only [beq_iff_eq] at heq
      subst heq
      simp
    · exact List.mem_cons_of_mem _ (ih h)

/-- What the tables hold after the symbols `l`. -/
structure TablesOk (l : List (Word × Info)) (t : Tables) : Prop where
  imports : t.imports = imports l
  keys : (t.exports.map (·.1)).Nodup
  exports : ∀ n, (t.exports.lookup n).getD [] = exportsOf l n
  present : ∀ n, (t.exports.lookup n).isNone = (exportsOf l n).isEmpty
  onceKeys : (t.linkonce.map (·.1)).Nodup
  once : ∀ n, t.linkonce.lookup n = (l.find? (fun e => e.1 = linkOnce ∧ e.2.name = n)).map (·.2)

theorem tablesOk_step {l : List (Word × Info)} {t : Tables} (h : TablesOk l t) (k : Word) (i : Info) :
    TablesOk (l ++ [(k, i)]) (addSymbol t k i) := by
  have hI : imports (l ++ [(k, i)]) = imports l ++ (if k = linkImport then [i] else []) := by
    unfold imports
    rw [List.filter_append, List.map_append]
    by_cases hk : k = linkImport <;> simp [hk]
  have hE : ∀ n, exportsOf (l ++ [(k, i)]) n = exportsOf l n ++ (if k = linkExport ∧ i.name = n then [i] else []) := by
    intro n
    unfold exportsOf
    rw [List.filter_append, List.map_append]
    by_cases hk : k = linkExport ∧ i.name = n <;> simp [hk]
  have hO : ∀ n, ((l ++ [(k, i)]).find? (fun e => e.1 = linkOnce ∧ e.2.name = n)).map (·.2) =
      ((l.find? (fun e => e.1 = linkOnce ∧ e.2.name = n)).map (·.2)).or
        (if k = linkOnce ∧ i.name = n then some i else none) := by
    intro n
    rw [List.find?_append]
    cases l.find? (fun e => e.1 = linkOnce ∧ e.2.name = n) with
    | some e => rfl
    | none => by_cases hk : k = linkOnce ∧ i.name = n <;> simp [hk]
  unfold addSymbol
  by_cases h1 : k = linkImport
  · have h2 : k ≠ linkExport := by rw [h1]; decide
    have h3 : k ≠ linkOnce := by rw [h1]; decide
    rw [if_pos h1]
    refine ⟨?_, h.keys, ?_, ?_, h.onceKeys, ?_⟩
    · rw [hI, if_pos h1, ← h.imports]
    · intro n; rw [hE]; simp [h2, h.exports]
    · intro n; rw [hE]; simp only [h2, false_and, if_false, List.append_nil]; exact h.present n
    · intro n; rw [hO]; simp only [h3, false_and, if_false, Option.or_none]; exact h.once n
  · rw [if_neg h1]
    by_cases h2 : k = linkExport
    · have h3 : k ≠ linkOnce := by rw [h2]; decide
      rw [if_pos h2]
      refine ⟨?_, nodup_pushExport h.keys, ?_, ?_, h.onceKeys, ?_⟩
      · rw [hI, if_neg h1, List.append_nil, ← h.imports]
      · intro n
        rw [hE, lookup_pushExport, h.exports]
        by_cases hn : n = i.name
        · subst hn; simp [h2]
        · have : ¬ i.name = n := fun he => hn he.symm
          simp [hn, this]
      · intro n
        rw [hE, isNone_pushExport, h.present]
        by_cases hn : n = i.name
        · subst hn; simp [h2]
        · have : ¬ i.name = n := fun he => hn he.symm
          simp [hn, this]
      · intro n; rw [hO]; simp only [h3, false_and, if_false, Option.or_none]; exact h.once n
    · rw [if_neg h2]
      have e1 : imports (l ++ [(k, i)]) = t.imports := by rw [hI, if_neg h1, List.append_nil, h.imports]
      have e2 : ∀ n, (t.exports.lookup n).getD [] = exportsOf (l ++ [(k, i)]) n := by
        intro n; rw [hE]; simp [h2, h.exports]
      have e3 : ∀ n, (t.exports.lookup n).isNone = (exportsOf (l ++ [(k, i)]) n).isEmpty := by
        intro n; rw [hE]; simp only [h2, false_and, if_false, List.append_nil]; exact h.present n
      by_cases h3 : k = linkOnce
      · rw [if_pos h3]
        cases hl : t.linkonce.lookup i.name with
        | some j =>
          simp only [Option.isNone_some, Bool.false_eq_true, if_false]
          refine ⟨e1.symm, h.keys, e2, e3, h.onceKeys, ?_⟩
          intro n
          rw [hO, ← h.once]
          by_cases hn : i.name = n
          · subst hn; rw [hl]; rfl
          · simp [hn]
        | none =>
          simp only [Option.isNone_none, if_true]
          refine ⟨e1.symm, h.keys, e2, e3, ?_, ?_⟩
          · simp only [List.map_append, List.map_cons, List.map_nil]
            rw [List.nodup_append]
            refine ⟨h.onceKeys, by simp, ?_⟩
            intro a ha b hb
            simp only [List.mem_singleton] at hb
            subst hb
            rintro rfl
            obtain ⟨e, he, hea⟩ := List.mem_map.mp ha
            have := lookup_of_mem h.onceKeys he
            rw [hea, hl] at this
            cases this
          · intro n
            rw [hO, ← h.once]
            have happ : ∀ (a : List (List Byte × Info)), (a ++ [(i.name, i)]).lookup n =
                (a.lookup n).or (if i.name = n then some i else none) := by
              intro a
              induction a with
              | nil =>
                by_cases hn : i.name = n
                · subst hn; simp [List.lookup_cons]
                · have : (n == i.name) = false := by
                    rw [beq_eq_false_iff_ne]; exact fun he => hn he.symm
                  simp [List.lookup_cons, this, hn]
              | cons e a ih =>
                obtain ⟨x, y⟩ := e
                simp only [List.cons_append, List.lookup_cons]
                split
                · rfl
                · exact ih
            simp only
            rw [happ]
            simp [h3]
      · rw [if_neg h3]
        refine ⟨e1.symm, h.keys, e2, e3, h.onceKeys, ?_⟩
        intro n; rw [hO]; simp only [h3, false_and, if_false, Option.or_none]; exact h.once n

theorem tablesOk_all (l : List (Word × Info)) : TablesOk l (addAll ⟨[], [], []⟩ l) := by
  have : ∀ (l l0 : List (Word × Info)) t, TablesOk l0 t → TablesOk (l0 ++ l) (addAll t l) := by
    intro l
    induction l with
    | nil => intro l0 t h; simpa [addAll] using h
    | cons e l ih =>
      intro l0 t h
      have := ih (l0 ++ [e]) _ (tablesOk_step h e.1 e.2)
      simpa [addAll] using this
  have h0 : TablesOk [] (⟨[], [], []⟩ : Tables) := ⟨rfl, List.nodup_nil, fun _ => rfl, fun _ => rfl, List.nodup_nil, fun _ => rfl⟩
  simpa using this l [] _ h0

/-- What the exports hold once the `LinkOnceODR` definitions are added. -/
theorem addLinkonce_spec (lo : List (List Byte × Info)) (ex : List (List Byte × List Info))
    (hlo : (lo.map (·.1)).Nodup) (hex : (ex.map (·.1)).Nodup) :
    ((∃ r, addLinkonce lo ex = some r) ↔ ∀ n, (lo.lookup n).isSome → (ex.lookup n).isNone) ∧
    ∀ r, addLinkonce lo ex = some r → (r.map (·.1)).Nodup ∧
      ∀ n, (r.lookup n).getD [] = (ex.lookup n).getD [] ++ (lo.lookup n).toList := by
  induction lo generalizing ex with
  | nil =>
    refine ⟨by simp [addLinkonce], ?_⟩
    intro r hr
    cases hr
    exact ⟨hex, by simp⟩
  | cons e lo ih =>
    obtain ⟨k, i⟩ := e
    simp only [List.map_cons, List.nodup_cons] at hlo
    obtain ⟨ih1, ih2⟩ := ih (pushExport k i ex) hlo.2 (nodup_pushExport hex)
    have hk : lo.lookup k = none := by
      cases h : lo.lookup k with
      | none => rfl
      | some v => exact absurd (List.mem_map_of_mem (f := (·.1)) (mem_of_lookup h)) hlo.1
    unfold addLinkonce
    cases hn : (ex.lookup k).isNone with
    | false =>
      simp only [Bool.false_eq_true, if_false]
      refine ⟨⟨fun h => (by obtain ⟨r, hr⟩ := h; cases hr), ?_⟩, fun r hr => (by cases hr)⟩
      intro h
      have := h k (by simp [List.lookup_cons])
      rw [hn] at this
      cases this
    | true =>
      simp only [if_true]
      refine ⟨?_, ?_⟩
      · rw [ih1]
        constructor
        · intro h n hs
          rw [List.lookup_cons] at hs
          by_cases hx : n = k
          · subst hx; exact hn
          · have hb : (n == k) = false := by simpa using hx
            rw [hb] at hs
            have := h n hs
            rw [isNone_pushExport] at this
            simp only [Bool.and_eq_true] at this
            exact this.1
        · intro h n hs
          rw [isNone_pushExport]
          by_cases hx : n = k
          · subst hx; rw [hk] at hs; cases hs
          · have hb : (n == k) = false := by simpa using hx
            have := h n (by rw [List.lookup_cons, hb]; exact hs)
            simp [this, hx]
      · intro r hr
        obtain ⟨a1, a2⟩ := ih2 r hr
        refine ⟨a1, ?_⟩
        intro n
        rw [a2, lookup_pushExport, List.lookup_cons]
        by_cases hx : n = k
        · subst hx; simp [hk]
        · have hb : (n == k) = false := by simpa using hx
          simp [hx, hb]

theorem pairUp_spec (p : Bool) (ex : List (List Byte × List Info)) (is : List Info) :
    ((∃ r, pairUp p ex is = some r) ↔ (p = false → ∀ i ∈ is, (ex.lookup i.name).getD [] ≠ [])) ∧
    ∀ r, pairUp p ex is = some r →
      r = is.filterMap (fun i => ((ex.lookup i.name).getD []).head?.map (fun e => (i, e))) := by
  induction is with
  | nil =>
    refine ⟨by simp [pairUp], ?_⟩
    intro r hr
    cases hr
    rfl
  | cons i is ih =>
    obtain ⟨ih1, ih2⟩ := ih
    unfold pairUp
    cases he : (ex.lookup i.name).getD [] with
    | nil =>
      cases p with
      | true =>
        simp only [if_true, Bool.true_eq_false, false_implies, iff_true]
        refine ⟨ih1.mpr (by simp), ?_⟩
        intro r hr
        rw [ih2 r hr]
        simp [List.filterMap_cons, he]
      | false =>
        simp only [Bool.false_eq_true, if_false]
        refine ⟨⟨fun h => (by obtain ⟨r, hr⟩ := h; cases hr), ?_⟩, fun r hr => (by cases hr)⟩
        intro h
        exact absurd he (h trivial i (by simp))
    | cons e es =>
      simp only
      refine ⟨?_, ?_⟩
      · constructor
        · rintro ⟨r, hr⟩ hp j hj
          obtain ⟨r', hr', _⟩ := Option.map_eq_some_iff.mp hr
          rcases List.mem_cons.mp hj with rfl | hj
          · rw [he]; simp
          · exact ih1.mp ⟨r', hr'⟩ hp j hj
        · intro h
          obtain ⟨r, hr⟩ := ih1.mpr (fun hp j hj => h hp j (by simp [hj]))
          exact ⟨_, by rw [hr]; rfl⟩
      · intro r hr
        obtain ⟨r', hr', rfl⟩ := Option.map_eq_some_iff.mp hr
        rw [ih2 r' hr']
        simp [List.filterMap_cons, he]

/-- C37.  Let `l` be the symbols declared by the annotations of the merged module.  The linker
    succeeds in pairing imports with exports exactly if the names can be resolved, and then
    it pairs each import that is defined with its definition, in order. -/
theorem importExportPairs_spec (m : Module) (builtIn : Word → Bool) (allowPartial allowMultiple : Bool) :
    (∀ r, importExportPairs m builtIn allowPartial allowMultiple = .ok r ↔
      ∃ l, Symbols m builtIn m.annotations l ∧ Resolvable allowPartial allowMultiple l ∧
        r = (imports l).filterMap (fun i => (definition l i.name).map (fun e => (i, e)))) := by
  intro r
  -- the tables for given symbols
  have key : ∀ l, (match addLinkonce (addAll ⟨[], [], []⟩ l).linkonce (addAll ⟨[], [], []⟩ l).exports with
      | none => Res.err
      | some ex =>
        if allowMultiple = false ∧ ex.any (fun e => 1 < e.2.length) then .err
        else
          match pairUp allowPartial ex (addAll ⟨[], [], []⟩ l).imports with
          | none => .err
          | some r => .ok r) = Res.ok r ↔
      Resolvable allowPartial allowMultiple l ∧
        r = (imports l).filterMap (fun i => (definition l i.name).map (fun e => (i, e))) := by
    intro l
    have hT := tablesOk_all l
    generalize addAll ⟨[], [], []⟩ l = t at hT ⊢
    obtain ⟨a1, a2⟩ := addLinkonce_spec t.linkonce t.exports hT.onceKeys hT.keys
    -- the first condition
    have c1 : (∃ ex, addLinkonce t.linkonce t.exports = some ex) ↔
        ∀ e ∈ l, ∀ e' ∈ l, e.1 = linkExport → e'.1 = linkOnce → e.2.name ≠ e'.2.name := by
      rw [a1]
      constructor
      · intro h e he e' he' h1 h2 hn
        have hs : (t.linkonce.lookup e'.2.name).isSome := by
          rw [hT.once, Option.isSome_map, List.find?_isSome]
          exact ⟨e', he', by simp [h2]⟩
        have := h _ hs
        rw [hT.present, List.isEmpty_iff] at this
        have hm : e.2 ∈ exportsOf l e'.2.name := by
          unfold exportsOf
          exact List.mem_map_of_mem (List.mem_filter.mpr ⟨he, by simp [h1, hn]⟩)
        rw [this] at hm
        cases hm
      · intro h n hs
        rw [hT.once, Option.isSome_map, List.find?_isSome] at hs
        obtain ⟨e', he', hp⟩ := hs
        simp only [decide_eq_true_eq] at hp
        rw [hT.present, List.isEmpty_iff]
        unfold exportsOf
        rw [List.map_eq_nil_iff, List.filter_eq_nil_iff]
        intro e he hp'
        simp only [decide_eq_true_eq] at hp'
        exact h e he e' he' hp'.1 hp.1 (by rw [hp'.2, hp.2])
    cases hx : addLinkonce t.linkonce t.exports with
    | none =>
      simp only [reduceCtorEq, false_iff]
      rintro ⟨⟨hr, _⟩, _⟩
      obtain ⟨ex, hex⟩ := c1.mpr hr
      rw [hx] at hex
      cases hex
    | some ex =>
      have hr1 := c1.mp ⟨ex, hx⟩
      obtain ⟨b1, b2⟩ := a2 ex hx
      -- the exports of a name
      have hlook : ∀ n, (ex.lookup n).getD [] =
          exportsOf l n ++ ((l.find? (fun e => e.1 = linkOnce ∧ e.2.name = n)).map (·.2)).toList := by
        intro n; rw [b2, hT.exports, hT.once]
      have hexcl : ∀ n, exportsOf l n ≠ [] → (l.find? (fun e => e.1 = linkOnce ∧ e.2.name = n)) = none := by
        intro n hne
        cases hf : l.find? (fun e => e.1 = linkOnce ∧ e.2.name = n) with
        | none => rfl
        | some e' =>
          have h1 := List.find?_some hf
          have h2 := List.mem_of_find?_eq_some hf
          simp only [decide_eq_true_eq] at h1
          obtain ⟨i, hi⟩ := List.exists_mem_of_ne_nil _ hne
          unfold exportsOf at hi
          obtain ⟨e, he, _⟩ := List.mem_map.mp hi
          rw [List.mem_filter] at he
          obtain ⟨he, hp⟩ := he
          simp only [decide_eq_true_eq] at hp
          exact absurd (hp.2.trans h1.2.symm) (hr1 e he e' h2 hp.1 h1.1)
      have hdef : ∀ n, ((ex.lookup n).getD []).head? = definition l n := by
        intro n
        rw [hlook]
        have hfe : l.find? (fun e => e.1 = linkExport ∧ e.2.name = n) =
            (l.filter (fun e => e.1 = linkExport ∧ e.2.name = n)).head? := by
          rw [List.head?_filter]
        unfold definition
        rw [hfe]
        unfold exportsOf
        cases l.filter (fun e => e.1 = linkExport ∧ e.2.name = n) with
        | nil =>
          cases l.find? (fun e => e.1 = linkOnce ∧ e.2.name = n) <;> rfl
        | cons e es => rfl
      have hmany : ∀ n, 1 < ((ex.lookup n).getD []).length ↔ 1 < (exportsOf l n).length := by
        intro n
        rw [hlook]
        by_cases hne : exportsOf l n = []
        · rw [hne]
          simp only [List.nil_append, List.length_nil, Nat.not_lt_zero, iff_false]
          cases (l.find? (fun e => e.1 = linkOnce ∧ e.2.name = n)).map (·.2) <;> simp
        · rw [hexcl n hne]; simp
      have c2 : ex.any (fun e => 1 < e.2.length) = true ↔ ∃ n, 1 < (exportsOf l n).length := by
        rw [List.any_eq_true]
        constructor
        · rintro ⟨e, he, hl⟩
          simp only [decide_eq_true_eq] at hl
          refine ⟨e.1, (hmany _).mp ?_⟩
          rw [lookup_of_mem b1 he]
          exact hl
        · rintro ⟨n, hn⟩
          have := (hmany n).mpr hn
          cases hl : ex.lookup n with
          | none => rw [hl] at this; simp at this
          | some v =>
            rw [hl] at this
            exact ⟨_, mem_of_lookup hl, by simpa using this⟩
      obtain ⟨p1, p2⟩ := pairUp_spec allowPartial ex t.imports
      simp only
      split
      · rename_i hm
        simp only [reduceCtorEq, false_iff]
        rintro ⟨⟨_, h2, _⟩, _⟩
        obtain ⟨n, hn⟩ := c2.mp hm.2
        have := h2 hm.1 n
        omega
      · rename_i hm
        have h2 : allowMultiple = false → ∀ name, (exportsOf l name).length ≤ 1 := by
          intro hf n
          apply Decidable.byContradiction
          intro hn
          exact hm ⟨hf, c2.mpr ⟨n, by omega⟩⟩
        have c3 : (∃ r, pairUp allowPartial ex t.imports = some r) ↔
            (allowPartial = false → ∀ i ∈ imports l, (definition l i.name).isSome) := by
          rw [p1, hT.imports]
          constructor
          · intro h hp i hi
            rw [← hdef, List.isSome_head?]
            exact h hp i hi
          · intro h hp i hi
            have := h hp i hi
            rw [← hdef, List.isSome_head?] at this
            exact this
        cases hpu : pairUp allowPartial ex t.imports with
        | none =>
          simp only [reduceCtorEq, false_iff]
          rintro ⟨⟨_, _, h3⟩, _⟩
          obtain ⟨r', hr'⟩ := c3.mpr h3
          rw [hpu] at hr'
          cases hr'
        | some r' =>
          simp only [Res.ok.injEq]
          have := p2 r' hpu
          rw [hT.imports] at this
          simp only [hdef] at this
          subst this
          constructor
          · rintro rfl; exact ⟨⟨hr1, h2, c3.mp ⟨_, hpu⟩⟩, rfl⟩
          · rintro ⟨_, rfl⟩; rfl
  unfold importExportPairs
  cases hc : collect m builtIn m.annotations ⟨[], [], []⟩ with
  | err =>
    simp only [reduceCtorEq, false_iff]
    rintro ⟨l, hl, _⟩
    rw [collect_ok.mpr ⟨l, hl, rfl⟩] at hc
    cases hc
  | fault =>
    simp only [reduceCtorEq, false_iff]
    rintro ⟨l, hl, _⟩
    rw [collect_ok.mpr ⟨l, hl, rfl⟩] at hc
    cases hc
  | ok t =>
    simp only
    obtain ⟨l, hl, rfl⟩ := collect_ok.mp hc
    constructor
    · intro h
      obtain ⟨h1, h2⟩ := (key l).mp h
      exact ⟨l, hl, h1, h2⟩
    · rintro ⟨l', hl', h1, h2⟩
      rw [collect_ok.mpr ⟨l', hl', rfl⟩] at hc
      simp only [Res.ok.injEq] at hc
      rw [← hc]
      exact (key l').mpr ⟨h1, h2⟩

end Verif.Link
