import Verif.TargetEnv.Model
set_option linter.unusedSimpArgs false
set_option linter.unusedVariables false

/-!
# C51: target environment strings
-/
namespace Verif.TargetEnv

namespace Spec

/-- The documented names (tool help text, CHANGES and include/spirv-tools/libspirv.h):
`spv1.N`, `vulkan1.N`, `vulkan1.1spv1.4`, `openclX.Y[embedded]`, `opengl4.N`. -/
def documented : List (String × Env) :=
  (List.finRange 7).map (fun (n : Fin 7) => ("spv1." ++ toString n.val, Env.universal n)) ++
  [("vulkan1.0", .vulkan10), ("vulkan1.1", .vulkan11), ("vulkan1.2", .vulkan12),
   ("vulkan1.3", .vulkan13), ("vulkan1.4", .vulkan14), ("vulkan1.1spv1.4", .vulkan11spv14)] ++
  [("opencl1.2", .opencl12), ("opencl2.0", .opencl20), ("opencl2.1", .opencl21), ("opencl2.2", .opencl22),
   ("opencl1.2embedded", .openclEmb12), ("opencl2.0embedded", .openclEmb20),
   ("opencl2.1embedded", .openclEmb21), ("opencl2.2embedded", .openclEmb22)] ++
  [("opengl4.0", .opengl40), ("opengl4.1", .opengl41), ("opengl4.2", .opengl42),
   ("opengl4.3", .opengl43), ("opengl4.5", .opengl45)]

/-- `e` is the environment of the longest documented name `s` begins with. -/
def Denotes (s : Text) (e : Env) : Prop :=
  ∃ n, (n, e) ∈ documented ∧ n.toList <+: s ∧
    ∀ n' e', (n', e') ∈ documented → n'.toList <+: s → n'.toList.length ≤ n.toList.length

/-- The text (of one line or more) is a version comment for minor version `d`. -/
def VersionLine (t : Text) (d : Nat) : Prop :=
  d ≤ 6 ∧ ∃ rest, t = "; Version: 1.".toList ++ Char.ofNat (48 + d) :: rest ∧
    ∀ c ∈ rest.head?, isDigit c = false

/-- The header of the text (leading blanks and comment lines) says version 1.`d`; the first
version comment counts. -/
inductive Says : Text → Nat → Prop
  | here {t d} : VersionLine t d → Says t d
  | space {c t d} : isSpace c = true → Says t d → Says (c :: t) d
  | comment {body t d} : '\n' ∉ body → (∀ d', ¬ VersionLine (';' :: body) d') → Says t d →
      Says (';' :: body ++ '\n' :: t) d

end Spec
open Spec

theorem startsWith_iff (s b : Text) : startsWith s b = true ↔ b <+: s := by
  induction s generalizing b with
  | nil => cases b <;> simp [startsWith]
  | cons c s ih =>
    cases b with
    | nil => simp [startsWith]
    | cons d b =>
      simp only [startsWith, Bool.and_eq_true, beq_iff_eq, ih, List.cons_prefix_cons]
      exact ⟨fun ⟨h1, h2⟩ => ⟨h1.symm, h2⟩, fun ⟨h1, h2⟩ => ⟨h1.symm, h2⟩⟩

/-- Longer names come before their prefixes. -/
def Ordered (l : List (String × Env)) : Prop :=
  l.Pairwise (fun a b => ¬ a.1.toList <+: b.1.toList)

instance (l : List (String × Env)) : Decidable (Ordered l) :=
  inferInstanceAs (Decidable (l.Pairwise _))

theorem nameMap_ordered : Ordered nameMap := by decide +kernel

theorem nameMap_documented (p : String × Env) : p ∈ nameMap ↔ p ∈ documented := by
  have h1 : ∀ p ∈ nameMap, p ∈ documented := by decide +kernel
  have h2 : ∀ p ∈ documented, p ∈ nameMap := by decide +kernel
  exact ⟨h1 p, h2 p⟩

theorem documented_functional : ∀ p ∈ documented, ∀ q ∈ documented, p.1 = q.1 → p = q := by
  decide +kernel

theorem parseLoop_spec (s : Text) : ∀ (l : List (String × Env)), Ordered l →
    (∃ n e, (n, e) ∈ l ∧ n.toList <+: s ∧ (∀ p ∈ l, p.1.toList <+: s → p.1.toList.length ≤ n.toList.length) ∧
      parseLoop s l = (true, e)) ∨
    ((∀ p ∈ l, ¬ p.1.toList <+: s) ∧ parseLoop s l = (false, .universal 0)) := by
  intro l
  induction l with
  | nil => intro _; exact Or.inr ⟨by simp, rfl⟩
  | cons p r ih =>
    rcases p with ⟨n, e⟩
    intro ho
    have ho := List.pairwise_cons.1 ho
    simp only [parseLoop]
    by_cases hs : startsWith s n.toList = true
    · left
      rw [if_pos hs]
      rw [startsWith_iff] at hs
      refine ⟨n, e, by simp, hs, ?_, rfl⟩
      intro p hp hps
      rcases List.mem_cons.1 hp with rfl | hp
      · exact Nat.le_refl _
      · rcases Nat.le_total p.1.toList.length n.toList.length with h | h
        · exact h
        · exact absurd (List.prefix_of_prefix_length_le hs hps h) (ho.1 p hp)
    · rw [if_neg hs]
      rw [startsWith_iff] at hs
      rcases ih ho.2 with ⟨n', e', h1, h2, h3, h4⟩ | ⟨h1, h2⟩
      · left
        refine ⟨n', e', by simp [h1], h2, ?_, h4⟩
        intro p hp hps
        rcases List.mem_cons.1 hp with rfl | hp
        · exact absurd hps hs
        · exact h3 p hp hps
      · right
        refine ⟨?_, h2⟩
        intro p hp
        rcases List.mem_cons.1 hp with rfl | hp
        · exact hs
        · exact h1 p hp

/-- C51: the text is accepted exactly when it begins with a documented name, and then the
environment is that of the longest such name; otherwise (or for a null text) the result is
`false` and the environment SPIR-V 1.0. -/
theorem parseTargetEnv_spec (s : Text) :
    (∃ e, Denotes s e ∧ parseTargetEnv (some s) = (true, e)) ∨
    ((∀ e, ¬ Denotes s e) ∧ (∀ p ∈ documented, ¬ p.1.toList <+: s) ∧
      parseTargetEnv (some s) = (false, .universal 0)) := by
  rcases parseLoop_spec s nameMap nameMap_ordered with ⟨n, e, h1, h2, h3, h4⟩ | ⟨h1, h2⟩
  · left
    exact ⟨e, ⟨n, (nameMap_documented _).1 h1, h2,
      fun n' e' h h' => h3 (n', e') ((nameMap_documented _).2 h) h'⟩, h4⟩
  · right
    have h3 : ∀ p ∈ documented, ¬ p.1.toList <+: s := fun p hp => h1 p ((nameMap_documented p).2 hp)
    exact ⟨fun e ⟨n, hn, hp, _⟩ => h3 _ hn hp, h3, h2⟩

/-- The environment a text denotes is unique. -/
theorem denotes_unique (s : Text) (e e' : Env) (h : Denotes s e) (h' : Denotes s e') : e = e' := by
  obtain ⟨n, h1, h2, h3⟩ := h
  obtain ⟨n', h1', h2', h3'⟩ := h'
  have hl : n.toList.length = n'.toList.length := Nat.le_antisymm (h3' _ _ h1 h2) (h3 _ _ h1' h2')
  have : n.toList = n'.toList :=
    (List.prefix_of_prefix_length_le h2 h2' (Nat.le_of_eq hl)).eq_of_length hl
  have hn : n = n' := String.toList_inj.1 this
  have := documented_functional _ h1 _ h1' hn
  exact congrArg Prod.snd this

theorem parseTargetEnv_null : parseTargetEnv none = (false, .universal 0) := rfl

example : Denotes "vulkan1.1spv1.4".toList .vulkan11spv14 :=
  ⟨"vulkan1.1spv1.4", by decide +kernel, List.prefix_refl _, by
    have : ∀ p ∈ documented, p.1.toList <+: "vulkan1.1spv1.4".toList → p.1.toList.length ≤ "vulkan1.1spv1.4".toList.length := by
      decide +kernel
    exact fun n' e' h => this (n', e') h⟩
example : parseTargetEnv (some "vulkan1.2spv1.5".toList) = (true, .vulkan12) := by decide +kernel

/-! ### Version comments -/

theorem matchLen_le (p t : Text) : matchLen p t ≤ p.length := by
  induction p generalizing t with
  | nil => simp [matchLen]
  | cons a p ih =>
    cases t with
    | nil => simp [matchLen]
    | cons c t =>
      simp only [matchLen]; split
      · have := ih t; simp; omega
      · simp

theorem matchLen_eq (p t : Text) : matchLen p t = p.length ↔ p <+: t := by
  induction p generalizing t with
  | nil => simp [matchLen]
  | cons a p ih =>
    cases t with
    | nil => simp [matchLen]
    | cons c t =>
      simp only [matchLen, List.cons_prefix_cons]
      split
      · rename_i h; rw [List.length_cons, Nat.add_right_cancel_iff, ih]; simp [h]
      · rename_i h; simp [h]

theorem skipLine_drop (p t : Text) (hp : '\n' ∉ p) : skipLine (t.drop (matchLen p t)) = skipLine t := by
  induction p generalizing t with
  | nil => simp [matchLen]
  | cons a p ih =>
    cases t with
    | nil => simp [matchLen]
    | cons c t =>
      simp only [matchLen]; split
      · rename_i h
        simp only [List.mem_cons, not_or] at hp
        rw [List.drop_succ_cons, ih t hp.2]
        subst h
        have : (a != '\n') = true := by simpa using fun h => hp.1 h.symm
        simp [skipLine, List.dropWhile_cons, this]
      · rfl

theorem skipLine_line (body t : Text) (h : '\n' ∉ body) : skipLine (body ++ '\n' :: t) = t := by
  induction body with
  | nil => rfl
  | cons c b ih =>
    simp only [List.mem_cons, not_or] at h
    have hc : (c != '\n') = true := by simpa using fun h' => h.1 h'.symm
    have := ih h.2
    simpa [skipLine, List.dropWhile_cons, hc] using this

theorem dropWhile_none (t : Text) (h : '\n' ∉ t) : t.dropWhile (· != '\n') = [] := by
  induction t with
  | nil => rfl
  | cons x t ih =>
    simp only [List.mem_cons, not_or] at h
    have hx : (x != '\n') = true := by simpa using fun h' => h.1 h'.symm
    rw [List.dropWhile_cons, if_pos hx]; exact ih h.2

theorem isDigit_ofNat (d : Nat) (h : d ≤ 6) : isDigit (Char.ofNat (48 + d)) = true ∧
    (Char.ofNat (48 + d)).toNat = 48 + d := by
  match d, h with
  | 0, _ | 1, _ | 2, _ | 3, _ | 4, _ | 5, _ | 6, _ => decide

theorem minorEnv_iff (t : Text) (e : Env) : minorEnv t = some e ↔
    ∃ d : Fin 7, e = .universal d ∧ ∃ rest, t = Char.ofNat (48 + d.val) :: rest ∧
      ∀ c ∈ rest.head?, isDigit c = false := by
  cases t with
  | nil => simp [minorEnv]
  | cons m r =>
    have hn : isDigit (r.headD '\x00') = false ↔ ∀ c ∈ r.head?, isDigit c = false := by
      cases r <;> simp [isDigit]
    unfold minorEnv
    simp only [Bool.and_eq_true, Bool.not_eq_true', hn]
    by_cases h : isDigit m = true ∧ ∀ c ∈ r.head?, isDigit c = false
    · rw [if_pos h]
      have hm : 48 ≤ m.toNat ∧ m.toNat ≤ 57 := by simpa [isDigit] using h.1
      constructor
      · intro he
        split at he
        · rename_i hlt
          simp only [Option.some.injEq] at he
          refine ⟨⟨m.toNat - 48, hlt⟩, he.symm, r, ?_, h.2⟩
          have : 48 + (m.toNat - 48) = m.toNat := by omega
          simp [this, Char.ofNat_toNat]
        · simp at he
      · rintro ⟨d, rfl, rest, heq, _⟩
        simp only [List.cons.injEq] at heq
        have hd := (isDigit_ofNat d.val (by omega)).2
        have : m.toNat - 48 = d.val := by rw [heq.1, hd]; omega
        rw [dif_pos (by omega)]
        simp [this]
    · rw [if_neg h]
      simp only [reduceCtorEq, false_iff, not_exists, not_and]
      rintro d rfl rest heq hr
      simp only [List.cons.injEq] at heq
      apply h
      rw [heq.1, heq.2]
      exact ⟨(isDigit_ofNat d.val (by omega)).1, hr⟩

theorem versionPrefix_length : versionPrefix.length = 12 := by decide
theorem prefix_eq : "; Version: 1.".toList = ';' :: versionPrefix := by decide
theorem versionPrefix_nonl : '\n' ∉ versionPrefix := by decide

/-- Lines 217-238 recognise exactly the version comments. -/
theorem tryVersion_iff (t : Text) (e : Env) :
    (if matchLen versionPrefix t = 12 then minorEnv (t.drop 12) else none) = some e ↔
    ∃ d : Fin 7, e = .universal d ∧ VersionLine (';' :: t) d.val := by
  have hm := matchLen_eq versionPrefix t
  rw [versionPrefix_length] at hm
  unfold VersionLine
  rw [prefix_eq]
  constructor
  · intro h
    split at h
    · rename_i hj
      obtain ⟨u, rfl⟩ := hm.1 hj
      have hdrop : (versionPrefix ++ u).drop 12 = u := by
        rw [← versionPrefix_length, List.drop_left]
      rw [hdrop, minorEnv_iff] at h
      obtain ⟨d, rfl, rest, rfl, hr⟩ := h
      exact ⟨d, rfl, by omega, rest, rfl, hr⟩
    · simp at h
  · rintro ⟨d, rfl, _, rest, heq, hr⟩
    simp only [List.cons_append, List.cons.injEq, true_and] at heq
    subst heq
    rw [if_pos (hm.2 ⟨_, rfl⟩)]
    have hdrop : (versionPrefix ++ Char.ofNat (48 + d.val) :: rest).drop 12 = Char.ofNat (48 + d.val) :: rest := by
      rw [← versionPrefix_length, List.drop_left]
    rw [hdrop, minorEnv_iff]
    exact ⟨d, rfl, rest, rfl, hr⟩

theorem versionLine_long (t : Text) (d : Nat) (h : VersionLine t d) : 13 < t.length := by
  obtain ⟨_, rest, rfl, _⟩ := h
  rw [prefix_eq]; simp [versionPrefix_length]; omega

theorem says_long {t : Text} {d : Nat} (h : Says t d) : 13 < t.length := by
  induction h with
  | here h => exact versionLine_long _ _ h
  | space _ _ ih => simp; omega
  | comment _ _ _ ih => simp; omega

/-- A version comment in a line is judged on that line alone. -/
theorem versionLine_line (body t : Text) (d : Nat) (hb : '\n' ∉ body)
    (h : VersionLine (';' :: body ++ '\n' :: t) d) : VersionLine (';' :: body) d := by
  obtain ⟨hd, rest, heq, hr⟩ := h
  rw [prefix_eq] at heq
  have hnl : Char.ofNat (48 + d) ≠ '\n' := by
    intro h; have := (isDigit_ofNat d hd).1; rw [h] at this; exact absurd this (by decide)
  simp only [List.cons_append, List.cons.injEq, true_and] at heq
  have heq' : body ++ '\n' :: t = (versionPrefix ++ [Char.ofNat (48 + d)]) ++ rest := by simp [heq]
  have hpn : '\n' ∉ versionPrefix ++ [Char.ofNat (48 + d)] := by
    intro h
    rcases List.mem_append.1 h with h | h
    · exact versionPrefix_nonl h
    · exact hnl (List.mem_singleton.1 h).symm
  rcases List.append_eq_append_iff.1 heq' with ⟨a, h1, h2⟩ | ⟨a, h1, h2⟩
  · cases a with
    | nil =>
      simp at h1
      refine ⟨hd, [], ?_, by simp⟩
      rw [prefix_eq, ← h1]; simp
    | cons x a =>
      simp at h2
      exfalso; apply hpn; rw [h1, ← h2.1]; simp
  · refine ⟨hd, a, by rw [prefix_eq, h1]; simp, ?_⟩
    intro c hc
    apply hr
    cases a with
    | nil => simp at hc
    | cons x a => rw [h2]; simpa using hc

theorem not_space_semi : isSpace ';' = false := by decide

/-- C51: reading the target from an assembly text: the result is `true` with SPIR-V 1.d
exactly when the text's header comments say version 1.d. -/
theorem readEnv_spec (t : Text) (e : Env) :
    readEnv t = some e ↔ ∃ d : Fin 7, e = .universal d ∧ Says t d.val := by
  constructor
  · intro h
    have key : ∀ n (t : Text), t.length ≤ n → readEnv t = some e →
        ∃ d : Fin 7, e = .universal d ∧ Says t d.val := by
      intro n
      induction n with
      | zero =>
        intro t ht h
        cases t with
        | nil => simp [readEnv] at h
        | cons => simp at ht
      | succ n ih =>
        intro t ht h
        cases t with
        | nil => simp [readEnv] at h
        | cons c t =>
          rw [readEnv] at h
          split at h
          · rename_i hc
            subst hc
            split at h
            · simp at h
            · simp only at h
              split at h
              · rename_i e' he
                simp only [Option.some.injEq] at h
                subst h
                obtain ⟨d, hd, hv⟩ := (tryVersion_iff t _).1 he
                exact ⟨d, hd, .here hv⟩
              · rename_i hnone
                rw [skipLine_drop _ _ versionPrefix_nonl] at h
                have hnv : ∀ d', ¬ VersionLine (';' :: t) d' := by
                  intro d' hv
                  have hd' : d' ≤ 6 := hv.1
                  have := (tryVersion_iff t (.universal ⟨d', by omega⟩)).2 ⟨⟨d', by omega⟩, rfl, hv⟩
                  rw [hnone] at this; simp at this
                by_cases hnl : '\n' ∈ t
                · obtain ⟨body, u, rfl, hb⟩ : ∃ body u, t = body ++ '\n' :: u ∧ '\n' ∉ body := by
                    obtain ⟨b, u, h1, h2⟩ := List.eq_append_cons_of_mem hnl
                    exact ⟨b, u, h1, h2⟩
                  rw [skipLine_line _ _ hb] at h
                  obtain ⟨d, hd, hs⟩ := ih u (by simp at ht; omega) h
                  refine ⟨d, hd, ?_⟩
                  exact .comment hb (fun d' hv => hnv d' (by
                    obtain ⟨h1, rest, h2, h3⟩ := hv
                    refine ⟨h1, rest ++ '\n' :: u, ?_, ?_⟩
                    · rw [prefix_eq] at h2 ⊢
                      simp only [List.cons_append, List.cons.injEq, true_and] at h2 ⊢
                      rw [h2]; simp
                    · intro c hc
                      cases rest with
                      | nil => simp at hc; subst hc; decide
                      | cons x rest => exact h3 c (by simpa using hc))) hs
                · have : t.dropWhile (· != '\n') = [] := dropWhile_none t hnl
                  simp [skipLine, this, readEnv] at h
          · split at h
            · rename_i hs
              obtain ⟨d, hd, hs'⟩ := ih t (by simp at ht; omega) h
              exact ⟨d, hd, .space hs hs'⟩
            · simp at h
    exact key t.length t (Nat.le_refl _) h
  · rintro ⟨d, rfl, h⟩
    generalize hd : d.val = dv at h
    induction h with
    | @here t d' hv =>
      subst hd
      have hl := versionLine_long _ _ hv
      obtain ⟨t', rfl⟩ : ∃ t', t = ';' :: t' := by
        obtain ⟨_, rest, rfl, _⟩ := hv; exact ⟨_, rfl⟩
      rw [readEnv]
      rw [if_pos rfl, if_neg (by omega)]
      have := (tryVersion_iff t' (.universal d)).2 ⟨d, rfl, hv⟩
      simp only [this]
    | @space c t d' hc _ ih =>
      rw [readEnv, if_neg (by rintro rfl; rw [not_space_semi] at hc; simp at hc), if_pos hc]
      exact ih hd
    | @comment body t d' hb hnv hs ih =>
      have hl := says_long hs
      rw [List.cons_append, readEnv, if_pos rfl, if_neg (by simp; omega)]
      have : (if matchLen versionPrefix (body ++ '\n' :: t) = 12
          then minorEnv ((body ++ '\n' :: t).drop 12) else none) = none := by
        cases h : (if matchLen versionPrefix (body ++ '\n' :: t) = 12
          then minorEnv ((body ++ '\n' :: t).drop 12) else none) with
        | none => rfl
        | some e =>
          obtain ⟨d2, _, hv⟩ := (tryVersion_iff _ _).1 h
          exact absurd (versionLine_line body t _ hb hv) (hnv _)
      simp only [this]
      rw [skipLine_drop _ _ versionPrefix_nonl, skipLine_line _ _ hb]
      exact ih hd

theorem text_eq : "; SPIR-V\n; Version: 1.3\n; x\n".toList =
    ';' :: " SPIR-V".toList ++ '\n' :: ("; Version: 1.".toList ++ Char.ofNat (48 + 3) :: "\n; x\n".toList) := by
  decide

/-- The usual header produced by the disassembler. -/
example : Says "; SPIR-V\n; Version: 1.3\n; x\n".toList 3 := by
  rw [text_eq]
  refine .comment (by decide) ?_ (.here ⟨by omega, _, rfl, by decide⟩)
  intro d h
  have := versionLine_long _ _ h
  exact absurd this (by decide)

/-! ### Vulkan versions -/

/-- C51: a pair of required versions is accepted exactly when some Vulkan environment
supports both, and the answer is then the least capable one that does. -/
theorem parseVulkanEnv_spec (v s : Nat) :
    (∃ e ev es, (e, ev, es) ∈ vulkanEnvs ∧ v ≤ ev ∧ s ≤ es ∧ parseVulkanEnv v s = some e ∧
      ∀ e' ev' es', (e', ev', es') ∈ vulkanEnvs → v ≤ ev' → s ≤ es' → ev ≤ ev' ∧ es ≤ es') ∨
    ((∀ e' ev' es', (e', ev', es') ∈ vulkanEnvs → ¬ (v ≤ ev' ∧ s ≤ es')) ∧ parseVulkanEnv v s = none) := by
  have gen : ∀ l : List (Env × Nat × Nat),
      List.Pairwise (fun a b => a.2.1 ≤ b.2.1 ∧ a.2.2 ≤ b.2.2) l →
      (∃ e ev es, (e, ev, es) ∈ l ∧ v ≤ ev ∧ s ≤ es ∧ parseVulkanLoop v s l = some e ∧
        ∀ e' ev' es', (e', ev', es') ∈ l → v ≤ ev' → s ≤ es' → ev ≤ ev' ∧ es ≤ es') ∨
      ((∀ e' ev' es', (e', ev', es') ∈ l → ¬ (v ≤ ev' ∧ s ≤ es')) ∧ parseVulkanLoop v s l = none) := by
    intro l
    induction l with
    | nil => intro _; exact Or.inr ⟨by simp, rfl⟩
    | cons p r ih =>
      rcases p with ⟨e, ev, es⟩
      intro hp
      rw [List.pairwise_cons] at hp
      simp only [parseVulkanLoop]
      by_cases h : ev ≥ v ∧ es ≥ s
      · rw [if_pos h]
        refine Or.inl ⟨e, ev, es, by simp, h.1, h.2, rfl, ?_⟩
        intro e' ev' es' hm _ _
        rcases List.mem_cons.1 hm with hm | hm
        · simp only [Prod.mk.injEq] at hm; omega
        · exact hp.1 _ hm
      · rw [if_neg h]
        rcases ih hp.2 with ⟨e1, ev1, es1, h1, h2, h3, h4, h5⟩ | ⟨h1, h2⟩
        · refine Or.inl ⟨e1, ev1, es1, by simp [h1], h2, h3, h4, ?_⟩
          intro e' ev' es' hm hv hs
          rcases List.mem_cons.1 hm with hm | hm
          · simp only [Prod.mk.injEq] at hm; omega
          · exact h5 e' ev' es' hm hv hs
        · refine Or.inr ⟨?_, h2⟩
          intro e' ev' es' hm
          rcases List.mem_cons.1 hm with hm | hm
          · simp only [Prod.mk.injEq] at hm; omega
          · exact h1 e' ev' es' hm
  exact gen vulkanEnvs (by decide +kernel)

/-- The table agrees with the version each environment implies, and lists every Vulkan
environment. -/
theorem vulkanEnvs_versions :
    (∀ p ∈ vulkanEnvs, p.2.2 = versionFor p.1 ∧ isVulkan p.1 = true) ∧
    (∀ e, isVulkan e = true → e ∈ vulkanEnvs.map Prod.fst) := by
  refine ⟨by decide +kernel, ?_⟩
  intro e
  cases e <;> simp [isVulkan, vulkanEnvs]

/-- Every environment with a name belongs to exactly one client API (or none, the
universal environments), as its name says. -/
theorem documented_family : ∀ p ∈ documented,
    (isVulkan p.2 = true ↔ "vulkan".toList <+: p.1.toList) ∧
    (isOpenCL p.2 = true ↔ "opencl".toList <+: p.1.toList) ∧
    (isOpenGL p.2 = true ↔ "opengl".toList <+: p.1.toList) ∧ versionFor p.2 ≠ 0 := by
  decide +kernel

example : parseVulkanEnv (vulkanVer 1 1) (spirvVer 1 4) = some .vulkan11spv14 := by decide
example : parseVulkanEnv (vulkanVer 1 2) (spirvVer 1 6) = some .vulkan13 := by decide
example : parseVulkanEnv (vulkanVer 1 5) (spirvVer 1 0) = none := by decide

end Verif.TargetEnv
