import Verif.LocalElim.Sim
set_option linter.unusedSimpArgs false
set_option linter.unusedVariables false
set_option linter.unusedSectionVars false
/-!
# Addresses do not escape
-/
namespace Verif.LocalElim
open Verif.SsaExec Verif.LocalElim.Spec
variable {I B V R : Type} [DecidableEq I] {f : Func I B} {n : Nat} {S : Base I B V R}
  {clean : V → Prop} {cleanRest : R → Prop}

def EInv (f : Func I B) (S : Base I B V R) (clean : V → Prop) (cleanRest : R → Prop) (c : Config I B V (Mem I V R)) : Prop :=
  (∀ d y, c.env d = some y → f.kind d ≠ .store → f.kind d ≠ .debug →
    clean y ∨ ∃ k v, Direct f k d v ∧ S.hidden v = true) ∧
  (∀ v, clean (c.mem.1 v)) ∧ cleanRest c.mem.2

theorem readAll_mem {env : I → Option V} : ∀ {l : List I} {a : List V}, ReadAll env (l.map Operand.id) a → ∀ y ∈ a, ∃ d ∈ l, env d = some y := by
  intro l
  induction l with
  | nil => intro a h y hy; cases h; cases hy
  | cons d l ih =>
    intro a h y hy
    cases h with
    | cons h1 h2 =>
    simp only [List.mem_cons] at hy
    rcases hy with rfl | hy
    · exact ⟨d, by simp, h1⟩
    · obtain ⟨e, h3, h4⟩ := ih h2 y hy
      exact ⟨e, by simp [h3], h4⟩

section
variable (hw : WellFormed f n) (hv : Valid f.code fun d => S.start d ≠ none)
include hw hv

theorem einv_reach (hA : Addressing f S clean cleanRest) {c} (h : Reach f.code (sem f S) c) : EInv f S clean cleanRest c := by
  induction h with
  | start => exact ⟨fun d y hy _ _ => .inl (hA.start d y hy), hA.vars, hA.rest⟩
  | @step c c' h hs ih =>
    have hat := at_reach (S := sem f S) hv h
    obtain ⟨henv, hmem, hrest⟩ := ih
    cases hs with
    | @act b i j r env m hh a x m1 hra hact =>
      simp only at henv hmem hrest
      obtain ⟨q, hq⟩ := hat.split
      have hin : i ∈ f.insts := by
        have h1 : f.code.body b = f.body b := rfl
        simp only [h1] at hq
        simp only [Func.insts, List.mem_flatMap]
        exact ⟨b, hw.blocks b, by simp [Func.all, hq]⟩
      have hop : ∀ d ∈ f.ops i, ∀ y, env d = some y → clean y ∨ ∃ k v, Direct f k d v ∧ S.hidden v = true :=
        fun d hd y hy => henv d y hy (hw.result i hin d (.inl hd)) (hw.noresult i hin d (.inl hd))
      have goalOf : (f.kind i ≠ .store → f.kind i ≠ .debug → clean x ∨ ∃ k v, Direct f k i v ∧ S.hidden v = true) →
          (∀ v, clean (m1.1 v)) → cleanRest m1.2 → EInv f S clean cleanRest ⟨b, j :: r, define env i x, m1, i :: hh⟩ := by
        intro h1 h2 h3
        refine ⟨?_, h2, h3⟩
        intro d y hy hk1 hk2
        simp only [define] at hy
        split at hy
        · next hd => subst hd; cases hy; exact h1 hk1 hk2
        · exact henv d y hy hk1 hk2
      have generic : (f.kind i = .call ∨ f.kind i = .other) → EInv f S clean cleanRest ⟨b, j :: r, define env i x, m1, i :: hh⟩ := by
        intro hk
        have hex : ∃ o, S.act i a (S.seen m.1) m.2 x o m1.2 ∧ m1.1 = fun v => if S.hidden v then m.1 v else o v := by
          simp only [sem, act] at hact
          rcases hk with hk | hk <;> simpa [hk] using hact
        obtain ⟨o, h1, h2⟩ := hex
        have hcl : ∀ y ∈ a, clean y := by
          intro y hy
          obtain ⟨d, hd, hdy⟩ := readAll_mem hra y hy
          rcases hop d hd y hdy with h3 | ⟨k, v, h3, h4⟩
          · exact h3
          · exfalso
            rcases hA.only v h4 k d h3 i hin (.inl hd) with h5 | h5 | h5 | h5 | ⟨h5, -⟩ <;> rcases hk with hk | hk <;> rw [hk] at h5 <;> cases h5
        obtain ⟨h3, h4, h5⟩ := hA.act i a _ _ _ _ _ h1 hcl (by
          intro v z hz
          simp only [Base.seen] at hz
          split at hz
          · cases hz
          · cases hz; exact hmem v) hrest
        refine goalOf (fun _ _ => .inl h3) ?_ h5
        intro v
        rw [h2]
        simp only
        split
        · exact hmem v
        · next hh => exact h4 v (by simpa using hh)
      cases hk : f.kind i with
      | «variable» =>
        simp only [sem, act, hk] at hact
        obtain ⟨rfl, rfl⟩ := hact
        refine goalOf (fun _ _ => ?_) hmem hrest
        cases hh : S.hidden i with
        | false => exact .inl (hA.addr i hh)
        | true => exact .inr ⟨0, i, .here hk, hh⟩
      | chain =>
        obtain ⟨p, l, ho⟩ := hw.chain i hk
        simp only [Func.code, ho, List.map_cons] at hra
        cases hra with
        | @cons _ _ y ys h1 h2 =>
        simp only [Read] at h1
        simp only [sem, act, hk] at hact
        obtain ⟨h3, -, rfl⟩ := hact
        refine goalOf (fun _ _ => ?_) hmem hrest
        rcases hop p (by simp [ho]) y h1 with h4 | ⟨k, v, h4, h5⟩
        · exact .inl (hA.chain _ _ _ _ h3 h4)
        · exact .inr ⟨k + 1, v, .chain hk ho h4, h5⟩
      | copy =>
        obtain ⟨p, ho⟩ := hw.copy i hk
        simp only [Func.code, ho, List.map_cons, List.map_nil] at hra
        cases hra with
        | @cons _ _ y ys h1 h2 =>
        cases h2
        simp only [Read] at h1
        simp only [sem, act, hk] at hact
        obtain ⟨rfl, rfl⟩ := hact
        refine goalOf (fun _ _ => ?_) hmem hrest
        rcases hop p (by simp [ho]) x h1 with h4 | ⟨k, v, h4, h5⟩
        · exact .inl h4
        · exact .inr ⟨k + 1, v, .copy hk ho h4, h5⟩
      | load =>
        obtain ⟨p, ho⟩ := hw.load i hk
        simp only [Func.code, ho, List.map_cons, List.map_nil] at hra
        cases hra with
        | @cons _ _ y ys h1 h2 =>
        cases h2
        simp only [sem, act, hk] at hact
        cases hpt : S.points y with
        | some v =>
          simp only [hpt] at hact
          obtain ⟨rfl, rfl⟩ := hact
          exact goalOf (fun _ _ => .inl (hA.get _ _ (hmem v))) hmem hrest
        | none =>
          simp only [hpt] at hact
          obtain ⟨h3, rfl⟩ := hact
          exact goalOf (fun _ _ => .inl (hA.outLoad _ _ _ _ h3 hrest)) hmem hrest
      | store =>
        obtain ⟨p, w, ho⟩ := hw.store i hk
        simp only [Func.code, ho, List.map_cons, List.map_nil] at hra
        cases hra with
        | @cons _ _ y ys h1 h2 =>
        cases h2 with
        | @cons _ _ z ys h2 h3 =>
        cases h3
        simp only [Read] at h1 h2
        have hz : clean z := by
          rcases hop w (by simp [ho]) z h2 with h4 | ⟨k, v, h4, -⟩
          · exact h4
          · exact absurd h4 (hA.not_stored i hin hk p w ho k v)
        simp only [sem, act, hk] at hact
        cases hpt : S.points y with
        | some v =>
          simp only [hpt] at hact
          subst hact
          refine goalOf (fun h => absurd hk h) ?_ hrest
          intro u
          simp only [write]
          split
          · exact hA.put _ _ _ (hmem v) hz
          · exact hmem u
        | none =>
          simp only [hpt] at hact
          obtain ⟨h3, h4⟩ := hact
          exact goalOf (fun h => absurd hk h) (by rw [h4]; exact hmem) (hA.outStore _ _ _ _ _ h3 hz hrest)
      | debug =>
        simp only [sem, act, hk] at hact
        subst hact
        exact goalOf (fun _ h => absurd hk h) hmem hrest
      | call => exact generic (.inl hk)
      | other => exact generic (.inr hk)
    | @jump b i env m hh a b' env2 hra hj hsu hph hot =>
      refine ⟨?_, hmem, hrest⟩
      intro d y hy hk1 hk2
      simp only at hy henv
      by_cases hd : d ∈ f.phis b'
      · obtain ⟨o, x, h1, h2, h3⟩ := hph d hd
        rw [hy] at h3
        cases h3
        have hin : d ∈ f.insts := by
          simp only [Func.insts, List.mem_flatMap]
          exact ⟨b', hw.blocks b', by simp [Func.all, hd]⟩
        simp only [Func.code, List.mem_map, Prod.mk.injEq] at h1
        obtain ⟨⟨e, b2⟩, h4, rfl, rfl⟩ := h1
        have hmem' : ∃ b, (e, b) ∈ f.args d := ⟨b2, h4⟩
        rcases henv e y h2 (hw.result d hin e (.inr hmem')) (hw.noresult d hin e (.inr hmem')) with h5 | ⟨k, v, h5, h6⟩
        · exact .inl h5
        · exfalso
          have hk := (hw.phi b' d hd).1
          rcases hA.only v h6 k e h5 d hin (.inr hmem') with h7 | h7 | h7 | h7 | ⟨h7, -⟩ <;> rw [hk] at h7 <;> cases h7
      · exact henv d y (by rw [← hot d hd]; exact hy) hk1 hk2

theorem ptr_reach (hP : Pointers S) {c} (h : Reach f.code (sem f S) c) : PtrInv f S c := by
  induction h with
  | start => exact ptr_start hw hv hP
  | step _ hs ih => exact ptr_step hw hv hP ih hs

theorem logical (hP : Pointers S) (hA : Addressing f S clean cleanRest) : Logical f S where
  not_stored := hA.not_stored
  hidden := hA.hidden
  no_escape := by
    intro c h i r hi hk p l ho y v hy hpt hh
    have hin : i ∈ f.insts := hw.inside i (by rcases hk with hk | hk <;> simp [hk])
    have hm : p ∈ f.ops i := by simp [ho]
    rcases (einv_reach hw hv hA h).1 p y hy (hw.result i hin p (.inl hm)) (hw.noresult i hin p (.inl hm)) with h1 | ⟨k, u, h1, h2⟩
    · rw [hA.pointer y v h1 hpt] at hh
      cases hh
    · have := (ptr_reach hw hv hP h p y hy).1 k u h1
      rw [hpt] at this
      cases this
      exact ⟨k, h1⟩

end
end Verif.LocalElim
