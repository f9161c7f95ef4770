import Verif.Ccp.Fix
set_option linter.unusedSimpArgs false
set_option linter.unusedVariables false
set_option linter.unusedSectionVars false
/-!
# Executions and the final table
-/
namespace Verif.Ccp
open Propagator Propagator.Spec Ccp.Spec
variable {I B Mem : Type} [DecidableEq I] [DecidableEq B] {f : Func I B} {S : Sem I Mem}
  {s : State I B (Table I)}

/-- What executions keep. -/
structure Kept (f : Func I B) (S : Sem I Mem) (s : State I B (Table I)) (c : Config I B Mem) : Prop where
  block : c.block ∈ s.simulated
  rest : ∀ i ∈ c.rest, i ∈ body f c.block
  env : ∀ d x, f.const d = none → c.env d = some x → s.val d ≠ none ∧ ∀ k, s.val d = some (.const k) → x = S.constVal k

theorem mem_body {i : I} {b : B} (va : Valid f) (h : i ∈ body f b) : f.block i = some b ∧ f.kind i ≠ .phi := by
  unfold body at h
  rw [List.mem_filter] at h
  refine ⟨(va.prog.block i b).mpr h.1, fun hk => ?_⟩
  have := (va.phiKind i).mpr hk
  rw [this] at h; simp at h

theorem target_eq {n : Nat} {dflt : B} : ∀ {cases : List (Nat × B)}, n < 2 ^ 32 → (∀ l ∈ cases, l.1 < 2 ^ 32) →
    findCase (n % 2 ^ 32) dflt cases = target n dflt cases
  | [], _, _ => rfl
  | (l, b) :: rest, hn, hl => by
    have ih := target_eq (dflt := dflt) (cases := rest) hn fun l h => hl l (List.mem_cons_of_mem _ h)
    have h1 : n % 2 ^ 32 = n := Nat.mod_eq_of_lt hn
    have h2 : l % 2 ^ 32 = l := Nat.mod_eq_of_lt (hl (l, b) List.mem_cons_self)
    unfold target at ih ⊢
    unfold findCase
    rw [h1] at ih ⊢
    rw [h2, List.find?_cons]
    by_cases h : n = l
    · rw [if_pos h]; simp [h]
    · rw [if_neg h, decide_eq_false (Ne.symm h)]; exact ih

theorem target_mem (n : Nat) (dflt : B) (cases : List (Nat × B)) :
    target n dflt cases = dflt ∨ target n dflt cases ∈ cases.map (·.2) := by
  unfold target
  split
  · next c h => exact .inr (List.mem_map.mpr ⟨c, List.mem_of_find?_eq_some h, rfl⟩)
  · exact .inl rfl

variable (va : Valid f) (fs : FoldSound f S) (cv : ConstVals f S) (fin : Final f s)
include va fs cv fin

theorem init_val {d : I} (h : f.const d ≠ none) : s.val d = if f.global d then some (.const d) else none := by
  rw [(fin.good va fs.consts).out d (va.consts d h)]
  unfold Func.init
  cases hc : f.const d with
  | none => exact absurd hc h
  | some x => rfl

/-- Whatever an operand reads, the table is right about it. -/
theorem Kept.read {c : Config I B Mem} (k : Kept f S s c) {i d : I} (hu : Uses f.toProg i d) {x : Value}
    (h : read f S c.env d = some x) : s.val d ≠ none ∧ ∀ k, s.val d = some (.const k) → x = S.constVal k := by
  unfold Spec.read at h
  cases hc : f.const d with
  | none => rw [hc] at h; exact k.env d x hc h
  | some y =>
    rw [hc] at h
    cases h
    have hcd : f.const d ≠ none := by rw [hc]; simp
    rw [init_val va fs cv fin hcd, if_pos (va.declared i d hu hcd)]
    exact ⟨by simp, fun k hk => by cases hk; rfl⟩

theorem Kept.jump {c c' : Config I B Mem} (k : Kept f S s c) {b' : B} (he : (c.block, b') ∈ s.edges)
    (hj : Jump f S id c b' c') : Kept f S s c' := by
  have hb' : b' ∈ s.simulated := by
    rw [fin.settled.reach]
    exact .tail ((fin.settled.reach _).mp k.block) he
  cases hj with
  | mk env phis others =>
    refine ⟨hb', fun i hi => hi, fun d x hc hx => ?_⟩
    dsimp only at hx
    by_cases hd : d ∈ f.phis b'
    · obtain ⟨a, h1, h2, -⟩ := phis d hd
      have hdi := (va.prog.phis b' d).mp hd
      have hu : Uses f.toProg d a := by unfold Uses; rw [if_pos hdi.2]; exact ⟨_, h1⟩
      obtain ⟨h3, h4⟩ := k.read va fs cv fin hu (x := x) (by rw [← hx, h2]; rfl)
      rcases fin.phi va fs.consts ((va.prog.block d b').mpr hdi.1) hb' ((va.phiKind d).mp hdi.2) h1 he h3 with h5 | ⟨k0, h5, h6⟩
      · rw [h5]; simp
      · rw [h6]
        exact ⟨by simp, fun k hk => by cases hk; exact h4 _ h5⟩
    · rw [others d hd] at hx
      exact k.env d x hc hx

theorem Kept.define {b : B} {i : I} {rest : List I} {env : I → Option Value} {m m' : Mem} {x : Value}
    (k : Kept f S s ⟨b, i :: rest, env, m⟩)
    (h : s.val i ≠ none ∧ ∀ k, s.val i = some (.const k) → x = S.constVal k) :
    Kept f S s ⟨b, rest, define env i x, m'⟩ := by
  refine ⟨k.block, fun j hj => k.rest j (List.mem_cons_of_mem _ hj), fun d y hc hy => ?_⟩
  dsimp only at hy
  unfold Spec.define at hy
  by_cases hd : d = i
  · rw [if_pos hd] at hy; cases hy; rw [hd]; exact h
  · rw [if_neg hd] at hy; exact k.env d y hc hy

theorem Kept.step {c c' : Config I B Mem} (k : Kept f S s c)
    (nar : ∀ i rest sel dflt cases, c.rest = i :: rest → f.kind i = .switch sel dflt cases →
      (∀ n, Spec.read f S c.env sel = some (.int n) → n < 2 ^ 32) ∧ ∀ l ∈ cases, l.1 < 2 ^ 32)
    (hs : Spec.Step f S id c c') : Kept f S s c' := by
  have drop : ∀ {b : B} {i : I} {rest : List I} {env : I → Option Value} {m m' : Mem},
      Kept f S s ⟨b, i :: rest, env, m⟩ → Kept f S s ⟨b, rest, env, m'⟩ :=
    fun k => ⟨k.block, fun i hi => k.rest i (List.mem_cons_of_mem _ hi), k.env⟩
  cases hs with
  | @br b i rest env m t _ hk hj =>
    obtain ⟨hb, -⟩ := mem_body va (k.rest i (by simp))
    exact (drop k).jump va fs cv fin (fin.br va fs.consts hb k.block hk) hj
  | @cond b i rest env m c t e x _ hk hr hj =>
    obtain ⟨hb, hp⟩ := mem_body va (k.rest i (by simp))
    refine (drop k).jump va fs cv fin ?_ hj
    obtain ⟨-, hkv⟩ := k.read va fs cv fin (uses_in va hp (va.cond i c t e hk).1) hr
    rcases fin.cond va fs.consts hb k.block hk with ⟨h1, h2⟩ | ⟨k0, h1, ⟨h2, h3⟩ | ⟨y, h2, h3⟩⟩
    · cases x <;> assumption
    · have := hkv k0 h1
      have hn := (cv.null k0 h2).1
      cases x
      · exact h3
      · exact absurd this.symm hn
    · have := hkv k0 h1
      rw [cv.bool k0 y h2] at this
      cases this
      exact h3
  | @switch b i rest env m sel dflt cases n _ hk hr hj =>
    obtain ⟨hb, hp⟩ := mem_body va (k.rest i (by simp))
    refine (drop k).jump va fs cv fin ?_ hj
    obtain ⟨-, hkv⟩ := k.read va fs cv fin (uses_in va hp (va.switch i sel dflt cases hk).1) hr
    obtain ⟨n1, n2⟩ := nar i rest sel dflt cases rfl hk
    have hn := n1 n hr
    dsimp only
    rcases fin.switch va fs.consts hb k.block hk with h1 | ⟨k0, h1, ⟨h2, h3⟩ | ⟨y, h2, h3⟩⟩
    · exact h1 _ (target_mem _ _ _)
    · have h0 := (cv.null k0 h2).2 n (hkv k0 h1).symm
      subst h0
      rw [← target_eq hn n2]
      exact h3
    · have := hkv k0 h1
      rw [cv.int k0 y h2] at this
      cases this
      rw [← target_eq hn n2]
      exact h3
  | @copy b i rest env m src x hk hr =>
    obtain ⟨hb, hp⟩ := mem_body va (k.rest i (by simp))
    obtain ⟨hkn, hkv⟩ := k.read va fs cv fin (uses_in va hp (va.copy i src hk)) hr
    refine k.define va fs cv fin ?_
    rcases fin.copy va fs.consts hb k.block hk hkn with h | ⟨k0, h1, h2⟩
    · rw [h]; simp
    · rw [h2]
      exact ⟨by simp, fun k hk => by cases hk; exact hkv _ h1⟩
  | @assign b i rest env m a x m' hk hr ha =>
    obtain ⟨hb, hp⟩ := mem_body va (k.rest i (by simp))
    refine k.define va fs cv fin ?_
    rcases hk with hk | hk
    · have hop : ∀ d ∈ f.inDefs i, _ := fun d hd => k.read va fs cv fin (uses_in va hp hd) (hr d hd)
      rcases fin.fold va fs.consts hb k.block hk fun d hd => (hop d hd).1 with h | ⟨k0, mm, h1, h2, h3⟩
      · rw [h]; simp
      · rw [h1]
        refine ⟨by simp, fun k' hk' => ?_⟩
        cases hk'
        refine fs.value i mm k0 a m x m' hk h2 (fun d hd hc => ?_) ha
        rw [h3 d hd] at hc ⊢
        unfold mapFunc at hc ⊢
        cases hv : s.val d with
        | none => exact absurd hv (hop d hd).1
        | some y =>
          cases y with
          | const k1 => exact (hop d hd).2 k1 hv
          | varying =>
            rw [hv] at hc
            dsimp only at hc
            have h4 := hr d hd
            unfold Spec.read at h4
            cases hcd : f.const d with
            | none => exact absurd hcd hc
            | some z =>
              dsimp only [id] at h4
              rw [hcd] at h4
              exact (Option.some.inj h4).symm
    · rw [fin.assign va fs.consts hb k.block hk]; simp
  | @effect b i rest env m a x m' hk hr ha => exact drop k

theorem kept_reach (nar : Narrow f S) {c : Config I B Mem} (h : Spec.Reach f S id c) : Kept f S s c := by
  induction h with
  | start =>
    refine ⟨(fin.settled.reach _).mpr (.refl _), fun i hi => hi, fun d x hc hx => ?_⟩
    unfold initial at hx
    dsimp only at hx
    by_cases hg : f.global d = true
    · rw [(fin.good va fs.consts).out d (va.globals d hg)]
      unfold Func.init
      rw [if_pos hg, hc]; simp
    · rw [if_neg hg] at hx; cases hx
  | step hr hs ih => exact ih.step va fs cv fin (nar _ hr) hs

theorem Kept.replace {c : Config I B Mem} (k : Kept f S s c) {i d : I} (hu : Uses f.toProg i d)
    (h : Spec.read f S c.env d ≠ none) : Spec.read f S c.env (replace s.val d) = Spec.read f S c.env d := by
  cases hx : Spec.read f S c.env d with
  | none => exact absurd hx h
  | some x =>
    obtain ⟨h1, h2⟩ := k.read va fs cv fin hu hx
    unfold Ccp.replace
    cases hv : s.val d with
    | none => exact absurd hv h1
    | some y =>
      cases y with
      | varying => exact hx
      | const k0 =>
        dsimp only
        have hck := (fin.good va fs.consts).consts d k0 hv
        rw [h2 k0 hv]
        unfold Spec.read
        cases hc : f.const k0 with
        | none => exact absurd hc hck
        | some z => rfl

omit fs cv fin in
/-- Code that reads the same values does the same. -/
theorem step_congr {rd rd' : I → I} {c c' : Config I B Mem} (hrest : ∀ i ∈ c.rest, i ∈ body f c.block)
    (h : ∀ d, Reads f c d → Spec.read f S c.env (rd d) = Spec.read f S c.env (rd' d))
    (hs : Spec.Step f S rd c c') : Spec.Step f S rd' c c' := by
  have jump : ∀ {b i rest env m b' c'}, c = ⟨b, i :: rest, env, m⟩ → f.terminator i = true → b' ∈ f.succs b →
      Jump f S rd ⟨b, rest, env, m⟩ b' c' → Jump f S rd' ⟨b, rest, env, m⟩ b' c' := by
    rintro b i rest env m b' c' rfl ht hsu ⟨env', hp, ho⟩
    refine ⟨env', fun j hj => ?_, ho⟩
    obtain ⟨d, h1, h2, h3⟩ := hp j hj
    exact ⟨d, h1, h2.trans (h d ⟨i, rest, rfl, .inr ⟨b', j, hsu, hj, h1, ht⟩⟩), h3⟩
  have ops : ∀ {b i rest env m}, c = ⟨b, i :: rest, env, m⟩ → ∀ d ∈ f.inDefs i,
      Spec.read f S env (rd d) = Spec.read f S env (rd' d) := by
    rintro b i rest env m rfl d hd
    exact h d ⟨i, rest, rfl, .inl hd⟩
  cases hs with
  | @br b i rest env m t _ hk hj =>
    obtain ⟨hb, -⟩ := mem_body va (hrest i (by simp))
    exact .br hk (jump rfl (va.br i t hk).1 ((va.br i t hk).2.2 b hb) hj)
  | @cond b i rest env m c t e x _ hk hr hj =>
    obtain ⟨hb, -⟩ := mem_body va (hrest i (by simp))
    obtain ⟨h1, h2, -, -, h3⟩ := va.cond i c t e hk
    refine .cond hk (by rw [← ops rfl c h1]; exact hr) (jump rfl h2 ?_ hj)
    cases x
    · exact (h3 b hb).2
    · exact (h3 b hb).1
  | @switch b i rest env m sel dflt cases n _ hk hr hj =>
    obtain ⟨hb, -⟩ := mem_body va (hrest i (by simp))
    obtain ⟨h1, h2, h3⟩ := va.switch i sel dflt cases hk
    exact .switch hk (by rw [← ops rfl sel h1]; exact hr) (jump rfl h2 ((h3 _ (target_mem _ _ _)).2 b hb) hj)
  | @copy b i rest env m src x hk hr =>
    exact .copy hk (by rw [← ops rfl src (va.copy i src hk)]; exact hr)
  | @assign b i rest env m a x m' hk hr ha =>
    exact .assign hk (fun d hd => by rw [← ops rfl d hd]; exact hr d hd) ha
  | @effect b i rest env m a x m' hk hr ha =>
    exact .effect hk (fun d hd => by rw [← ops rfl d hd]; exact hr d hd) ha

omit fs cv fin in
theorem reads_uses {c : Config I B Mem} (hrest : ∀ i ∈ c.rest, i ∈ body f c.block) {d : I} (h : Reads f c d) :
    ∃ i, Uses f.toProg i d := by
  obtain ⟨i, rest, hr, h | ⟨b', j, h1, h2, h3, h4⟩⟩ := h
  · exact ⟨i, uses_in va (mem_body va (hrest i (by rw [hr]; simp))).2 h⟩
  · refine ⟨j, ?_⟩
    unfold Uses
    rw [if_pos ((va.prog.phis b' j).mp h2).2]
    exact ⟨_, h3⟩

theorem reach_iff (nar : Narrow f S) (df : Defined f S) (c : Config I B Mem) :
    Spec.Reach f S (replace s.val) c ↔ Spec.Reach f S id c := by
  have same : ∀ {c : Config I B Mem}, Spec.Reach f S id c → ∀ d, Reads f c d →
      Spec.read f S c.env (replace s.val d) = Spec.read f S c.env (id d) := by
    intro c hc d hd
    have k := kept_reach va fs cv fin nar hc
    obtain ⟨i, hu⟩ := reads_uses va k.rest hd
    exact k.replace va fs cv fin hu (df c hc d hd)
  constructor
  · intro h
    induction h with
    | start => exact .start
    | step _ hs ih =>
      exact .step ih (step_congr va (kept_reach va fs cv fin nar ih).rest (same ih) hs)
  · intro h
    induction h with
    | start => exact .start
    | step hr hs ih =>
      exact .step ih (step_congr va (kept_reach va fs cv fin nar hr).rest (fun d hd => (same hr d hd).symm) hs)

end Verif.Ccp
