import Verif.Divergence.Props
set_option linter.unusedSimpArgs false
set_option linter.unusedVariables false
/-!
# C77: functions without loops

If each instruction comes after all it depends on in the order in which the instructions are
first visited, one pass over them is enough.
-/
namespace Verif.Divergence
open Verif.DataFlow Verif.ControlDep Spec

namespace Spec

/-- `i` is looked at when `j` is visited. -/
def Input (f : Fn) (i j : Nat) : Prop :=
  (∃ ins, f.kind j = .op ins ∧ i ∈ ins) ∨
  (f.kind j = .label ∧ ∃ d ∈ f.cdg.rev.get (some j), ∃ s, d.source = some s ∧
    (i = s ∨ i = f.cond s))

/-- A function without loops, flat inputs and parameters: the instructions are in an order in
which inputs come first; nothing outside its blocks has a level. -/
structure Straight (f : Fn) : Prop where
  nodup : f.init.Nodup
  order : ∀ l r j, f.init = l ++ j :: r → ∀ i, Input f i j → i ∉ j :: r
  outside : ∀ i, i ∉ f.init → f.kind i = .op [] ∨ f.kind i = .void ∨ ∃ b, f.kind i = .term b
  flat : NoFlat f
  known : ∀ b, f.cdg.rev.get (some b) ≠ [] → f.cdg.hasBlock (some b) = true

/-- All flows into an instruction are followed. -/
def Full (f : Fn) (x : Nat → Nat) (i : Nat) : Prop :=
  match f.kind i with
  | .param => x i = 2
  | .load none => x i = 2
  | .load (some v) => x i = varLevel v
  | .op ins => ∀ v ∈ ins, x v ≤ x i
  | .label => ∀ d ∈ f.cdg.rev.get (some i), ∀ s, d.source = some s →
      x s ≤ x i ∧ promote f d (x (f.cond s)) ≤ x i
  | _ => True

end Spec

theorem full_congr {f : Fn} {x y : Nat → Nat} {j : Nat} (hj : y j = x j)
    (h : ∀ i, Input f i j → y i = x i) (hp : Full f x j) : Full f y j := by
  unfold Full at hp ⊢
  cases hk : f.kind j with
  | label =>
    rw [hk] at hp
    intro d hd s hs
    rw [h s (Or.inr ⟨hk, d, hd, s, hs, Or.inl rfl⟩), h _ (Or.inr ⟨hk, d, hd, s, hs, Or.inr rfl⟩), hj]
    exact hp d hd s hs
  | term b => trivial
  | void => trivial
  | param => rw [hk] at hp; dsimp only at hp ⊢; rw [hj]; exact hp
  | load v =>
    cases v with
    | none => rw [hk] at hp; dsimp only at hp ⊢; rw [hj]; exact hp
    | some v => rw [hk] at hp; dsimp only at hp ⊢; rw [hj]; exact hp
  | op ins =>
    rw [hk] at hp
    intro v hv
    rw [h v (Or.inl ⟨ins, hk, hv⟩), hj]
    exact hp v hv

/-- No level is 1. -/
def Plain (x : Nat → Nat) : Prop := ∀ i, x i = 0 ∨ x i = 2

/-- A visit follows all flows, where no level is 1. -/
theorem full_after {f : Fn} {all : List Nat} (ok : Spec.Ok f all) (hs : Straight f)
    {x : Nat → Nat} (hx : Inv f all x) {i : Nat} (hno : ¬ Input f i i)
    (hpl : Plain (visit f i (lift x)).1.div) : Full f (visit f i (lift x)).1.div i := by
  have hst := after_visit ok hx i
  have hsane := (visit_shape hx i).2.2.1
  have hoth := (visit_shape hx i).1
  generalize hy : (visit f i (lift x)).1.div = y at *
  unfold Full
  unfold Settled at hst
  cases hk : f.kind i with
  | label =>
    rw [hk] at hst
    intro d hd s hsrc
    obtain ⟨h1, h2⟩ := hst d hd s hsrc (hs.known i (fun e => by rw [e] at hd; simp at hd))
    refine ⟨h1, ?_⟩
    rcases hpl s with e | e
    · exact h2 e
    · have := promote_le f d (hsane (f.cond s)).1
      omega
  | term b => trivial
  | void => trivial
  | param => rw [hk] at hst; exact hst
  | load v =>
    cases v with
    | none => rw [hk] at hst; exact hst
    | some v => rw [hk] at hst; exact hst
  | op ins =>
    intro v hv
    have hvi : v ≠ i := fun e => hno (Or.inl ⟨ins, hk, e ▸ hv⟩)
    rw [hoth v hvi, ← hy]
    unfold visit
    rw [hk]
    dsimp only
    split
    · rename_i h2
      have h2 : x i = 2 := h2
      show x v ≤ x i
      rw [h2]
      exact (hx.sane v).1
    · simp only [computeInst, hk]
      rw [set_self]
      exact opLoop_ge x ins hv

/-- Where all flows are followed, a visit changes nothing. -/
theorem full_still {f : Fn} {all : List Nat} {x : Nat → Nat} (hx : Inv f all x) {i : Nat}
    (hf : Full f x i) : (visit f i (lift x)).1.div = x := by
  unfold Full at hf
  unfold visit
  cases hk : f.kind i with
  | label =>
    rw [hk] at hf
    dsimp only at hf ⊢
    unfold visitBlock
    split
    · rfl
    · split
      · rfl
      · dsimp only
        have : ∀ (ds : List (Dep Nat)), (∀ d ∈ ds, d ∈ f.cdg.rev.get (some i)) →
            ds.foldl (blockStep f i) (lift x) = lift x := by
          intro ds
          induction ds with
          | nil => intro _; rfl
          | cons d ds ih =>
            intro hd
            rw [List.foldl_cons]
            have : blockStep f i (lift x) d = lift x := by
              unfold blockStep
              split
              · rfl
              · rename_i s hs
                obtain ⟨h1, h2⟩ := hf d (hd d (by simp)) s hs
                rw [if_neg (by show ¬ x i < x s; omega)]
                dsimp only
                rw [if_neg (by show ¬ x i < promote f d (x (f.cond s)); omega)]
            rw [this]
            exact ih (fun e he => hd e (List.mem_cons_of_mem _ he))
        rw [this _ (fun _ h => h)]
        rfl
  | term b => rfl
  | void => rfl
  | param =>
    rw [hk] at hf
    dsimp only at hf ⊢
    rw [if_pos (show (lift x).div i = 2 from hf)]
    rfl
  | load v =>
    cases v with
    | none =>
      rw [hk] at hf
      dsimp only at hf ⊢
      rw [if_pos (show (lift x).div i = 2 from hf)]
      rfl
    | some v =>
      rw [hk] at hf
      dsimp only at hf ⊢
      split
      · rfl
      · simp only [computeInst, hk]
        rw [← hf]
        exact set_same x i
  | op ins =>
    rw [hk] at hf
    dsimp only at hf ⊢
    split
    · rfl
    · simp only [computeInst, hk]
      have h1 := hx.op i ins hk
      have h2 : (opLoop x ins).1 ≤ x i := by
        rcases opLoop_from x ins with e | ⟨v, hv, e, _⟩
        · rw [e]; exact Nat.zero_le _
        · rw [e]; exact hf v hv
      have : (opLoop (lift x).div ins).1 = x i := by show (opLoop x ins).1 = _; omega
      rw [this]
      exact set_same x i

theorem older_plain {st : St} (h : Older st) : Plain st.div := older_level h

theorem promote_mono (f : Fn) (d : Dep Nat) {a b : Nat} (h : a ≤ b) (hb : b ≤ 2) :
    promote f d a ≤ promote f d b := by
  unfold promote
  by_cases hc : f.follow d.through ≠ f.follow d.target
  · rw [if_pos hc, if_pos hc]
    split <;> split <;> omega
  · rw [if_neg hc, if_neg hc]
    exact h

/-- What holds while the instructions are visited in order, and after that. -/
structure Pass (f : Fn) (all : List Nat) (st : St) (w : Work Nat) : Prop where
  older : Older st
  inv : Inv f all st.div
  ok : DataFlow.Ok w
  nd : w.queue.Nodup
  dom : ∀ i ∈ w.queue, i ∈ all
  parts : ∃ done rest extra, f.init = done ++ rest ∧ w.queue = rest ++ extra ∧
    ∀ j ∈ done, Full f st.div j

theorem pass_end {f : Fn} {all : List Nat} (ok : Spec.Ok f all) (hs : Straight f) {st : St}
    {w : Work Nat} {c : Bool} {r : St × Work Nat × Bool}
    (hr : drain (analysis f) st w c = some r) (hp : Pass f all st w) :
    ∀ j ∈ f.init, Full f r.1.div j := by
  refine drain.partial_correctness (analysis f) (fun st w c r => Pass f all st w →
    ∀ j ∈ f.init, Full f r.1.div j) ?_ st w c r hr hp
  intro g ih st w c r hr hp
  split at hr
  · rename_i hq
    cases hr
    obtain ⟨done, rest, extra, h1, h2, h3⟩ := hp.parts
    rw [hq] at h2
    have : rest = [] := by cases rest with | nil => rfl | cons a l => simp at h2
    rw [this, List.append_nil] at h1
    rw [h1]
    exact h3
  · rename_i top q hq
    dsimp only at hr
    have hok' := ok_pop hp.ok hp.nd hq
    have hn' : q.Nodup := by have := hp.nd; rw [hq] at this; exact (List.nodup_cons.1 this).2
    have htop : top ∈ all := hp.dom top (by rw [hq]; simp)
    have hdom' : ∀ i ∈ q, i ∈ all := fun i hi => hp.dom i (by rw [hq]; simp [hi])
    have hold : Older (visit f top st).1 := older_visit hs.flat top st hp.older
    have ediv := (visit_div f top (s := st) (t := lift st.div) rfl).1
    have hinv : Inv f all (visit f top st).1.div := by
      rw [ediv]; exact visit_inv hp.inv htop
    -- the parts afterwards
    have hparts : ∃ done rest, f.init = done ++ rest ∧
        (∀ q' : List Nat, (∃ m, q' = q ++ m) → ∃ extra, q' = rest ++ extra) ∧
        ∀ j ∈ done, Full f (visit f top st).1.div j := by
      obtain ⟨done, rest, extra, h1, h2, h3⟩ := hp.parts
      rw [hq] at h2
      cases rest with
      | nil =>
        refine ⟨done, [], h1, ?_, ?_⟩
        · rintro q' -
          exact ⟨q', rfl⟩
        · have hst : (visit f top st).1.div = st.div := by
            rw [ediv]
            by_cases hti : top ∈ f.init
            · refine full_still hp.inv (h3 top ?_)
              rw [h1, List.append_nil] at hti
              exact hti
            · rcases hs.outside top hti with e | e | ⟨b, e⟩
              · refine full_still hp.inv ?_
                unfold Full
                rw [e]
                simp
              · refine full_still hp.inv ?_
                unfold Full
                rw [e]
                trivial
              · refine full_still hp.inv ?_
                unfold Full
                rw [e]
                trivial
          rw [hst]
          exact h3
      | cons a rest =>
        simp only [List.cons_append, List.cons.injEq] at h2
        obtain ⟨rfl, h2⟩ := h2
        refine ⟨done ++ [top], rest, by rw [h1]; simp, ?_, ?_⟩
        · rintro q' ⟨m, rfl⟩
          exact ⟨extra ++ m, by rw [h2]; simp⟩
        · have hoth := (visit_shape hp.inv top).1
          rw [ediv]
          intro j hj
          rcases List.mem_append.1 hj with hjd | hj
          · have hnd := hs.nodup
            rw [h1] at hnd
            have hjt : j ≠ top := fun e =>
              (List.nodup_append.1 hnd).2.2 j hjd top (by simp) e
            refine full_congr (hoth j hjt) ?_ (h3 j hjd)
            intro i hin
            refine hoth i ?_
            rintro rfl
            obtain ⟨l, r', hlr⟩ := List.append_of_mem hjd
            refine hs.order l (r' ++ i :: rest) j (by rw [h1, hlr]; simp) i hin ?_
            simp
          · simp only [List.mem_cons, List.not_mem_nil, or_false] at hj
            subst hj
            refine full_after ok hs hp.inv ?_ ?_
            · intro hin
              exact hs.order done rest j h1 j hin (by simp)
            · rw [← ediv]
              exact older_plain hold
    split at hr
    · rename_i hch
      obtain ⟨e1, e2⟩ := enqueueAll_spec hok' (succs f top)
      refine ih _ _ _ _ hr ⟨hold, hinv, e1, enqueueAll_nodup hok' hn' _, ?_, ?_⟩
      · intro i hi
        rcases (e2 i).1 hi with hi | hi
        · exact hdom' i hi
        · exact (converges ok).succs top _ htop hinv i hi
      · obtain ⟨done, rest, h1, h2, h3⟩ := hparts
        obtain ⟨extra, he⟩ := h2 (enqueueAll ⟨q, fun j => if j = top then false else w.on j⟩
          (succs f top)).queue (by
            generalize hw : (⟨q, fun j => if j = top then false else w.on j⟩ : Work Nat) = w'
            have hwq : w'.queue = q := by rw [← hw]
            rw [← hwq]
            clear hw hwq
            generalize succs f top = is
            induction is generalizing w' with
            | nil => exact ⟨[], by simp [enqueueAll]⟩
            | cons i is ih2 =>
              obtain ⟨m, hm⟩ := ih2 (enqueue w' i)
              have : enqueueAll w' (i :: is) = enqueueAll (enqueue w' i) is := rfl
              rw [this, hm]
              unfold enqueue
              split
              · exact ⟨m, rfl⟩
              · exact ⟨i :: m, by simp⟩)
        exact ⟨done, rest, extra, h1, he, h3⟩
    · refine ih _ _ _ _ hr ⟨hold, hinv, hok', hn', hdom', ?_⟩
      obtain ⟨done, rest, h1, h2, h3⟩ := hparts
      obtain ⟨extra, he⟩ := h2 q ⟨[], by simp⟩
      exact ⟨done, rest, extra, h1, he, h3⟩

/-- For functions without loops, flat inputs and parameters the levels are exact: divergence is
reported where it flows, and nowhere else. -/
theorem levels_exact_partial (f : Fn) (all : List Nat) (ok : Spec.Ok f all) (hs : Straight f)
    {st : St} (h : analyse f = some st) (i : Nat) :
    (∀ l, Flows f i l → l ≤ st.div i) ∧ (0 < st.div i → Flows f i (st.div i)) := by
  refine ⟨?_, (levels_justified f all ok h i).2⟩
  obtain ⟨st', c, hd, h', -⟩ := analyse_levels ok
  rw [h] at h'
  cases h'
  have hok := enqueueAll_spec (ok_empty (ι := Nat)) f.init
  have hfull : ∀ j ∈ f.init, Full f st.div j := pass_end ok hs hd ⟨⟨fun _ => 0, fun _ => Or.inl ⟨rfl, rfl⟩⟩, inv_zero f all, hok.1,
    enqueueAll_nodup ok_empty (by simp [Work.empty]) _,
    fun i hi => ok.init i (by simpa [Work.empty] using (hok.2 i).1 hi),
    [], f.init, [], rfl, by
      rw [List.append_nil, enqueueAll_queue ok_empty]
      have : ∀ (l q : List Nat), (q ++ l).Nodup →
          l.foldl (fun q i => if i ∈ q then q else q ++ [i]) q = q ++ l := by
        intro l
        induction l with
        | nil => intro q _; simp
        | cons a l ih =>
          intro q hn
          rw [List.foldl_cons]
          have ha : a ∉ q := fun ha => (List.nodup_append.1 hn).2.2 a ha a (by simp) rfl
          rw [if_neg ha, ih _ (by simpa using hn)]
          simp
      exact this f.init [] (by simpa using hs.nodup), by simp⟩
  have hin : ∀ i, (∀ ins, f.kind i = .op ins → ins ≠ []) → f.kind i ≠ .void →
      (∀ b, f.kind i ≠ .term b) → i ∈ f.init := by
    intro i h1 h2 h3
    by_cases hi : i ∈ f.init
    · exact hi
    · rcases hs.outside i hi with e | e | ⟨b, e⟩
      · exact absurd rfl (h1 _ e)
      · exact absurd e h2
      · exact absurd e (h3 b)
  intro l hl
  induction hl with
  | @param j hk =>
    have := hfull j (hin j (by simp [hk]) (by simp [hk]) (by simp [hk]))
    unfold Full at this
    rw [hk] at this
    dsimp only at this
    omega
  | @unknown j hk =>
    have := hfull j (hin j (by simp [hk]) (by simp [hk]) (by simp [hk]))
    unfold Full at this
    rw [hk] at this
    dsimp only at this
    omega
  | @load j v hk =>
    have := hfull j (hin j (by simp [hk]) (by simp [hk]) (by simp [hk]))
    unfold Full at this
    rw [hk] at this
    dsimp only at this
    omega
  | @operand i ins v l hk hv _ ih =>
    have := hfull i (hin _ (by
      intro ins' e
      rw [hk] at e
      cases e
      rintro rfl
      simp at hv) (by simp [hk]) (by simp [hk]))
    unfold Full at this
    rw [hk] at this
    have := this v hv
    omega
  | @control b d s l hk hd hsrc _ ih =>
    have := hfull b (hin _ (by simp [hk]) (by simp [hk]) (by simp [hk]))
    unfold Full at this
    rw [hk] at this
    have := (this d hd s hsrc).1
    omega
  | @branch b d s l hk hd hsrc _ ih =>
    have := hfull b (hin _ (by simp [hk]) (by simp [hk]) (by simp [hk]))
    unfold Full at this
    rw [hk] at this
    have h2 := (this d hd s hsrc).2
    refine Nat.le_trans ?_ h2
    have hb := (levels_justified f all ok h (f.cond s)).1
    exact promote_mono f d ih hb

theorem order_of_rank {f : Fn} (rk : Nat → Nat) (hp : f.init.Pairwise (fun a b => rk a < rk b))
    (hi : ∀ j ∈ f.init, ∀ i, Input f i j → rk i < rk j) :
    ∀ l r j, f.init = l ++ j :: r → ∀ i, Input f i j → i ∉ j :: r := by
  intro l r j he i hin hm
  have h1 := hi j (by rw [he]; simp) i hin
  rw [he] at hp
  have h2 := (List.pairwise_cons.1 (List.pairwise_append.1 hp).2.1).1
  rcases List.mem_cons.1 hm with rfl | hm
  · omega
  · have := h2 i hm
    omega

/-- `if 10 < 90 then 2 else 3`, with a phi: `31 = OpPhi 91 1, 92 2`. -/
def choice : Fn where
  kind := fun
    | 1 => .label | 2 => .label | 3 => .label
    | 10 => .load (some ⟨.input, false, false, false⟩) | 11 => .op [10, 90]
    | 31 => .op [91, 1, 92, 2]
    | 12 => .term 1 | 21 => .term 2 | 32 => .term 3 | _ => .op []
  users := fun | 10 => [11] | 11 => [12] | 90 => [11] | 91 => [31] | 92 => [31] | _ => []
  phis := fun | 3 => [31] | _ => []
  cdg := graph [dep 1 2 2] [1, 2, 3]
  cond := fun | 1 => 11 | _ => 0
  follow := fun | 1 => 1 | 2 => 3 | 3 => 3 | _ => 0
  init := [10, 11, 12, 1, 21, 2, 31, 32, 3]

theorem choice_ok : Spec.Ok choice [10, 11, 12, 1, 21, 2, 31, 32, 3] := by
  refine ⟨by decide, by decide, by decide, ?_, ?_, ?_, ?_⟩
  · intro b d h
    obtain ⟨-, h, -⟩ := graph_fwd.1 h
    simp only [List.mem_cons, List.not_mem_nil, or_false] at h
    subst h
    exact ⟨rfl, by decide⟩
  · intro i hi ins hk v hv hvk
    simp only [List.mem_cons, List.not_mem_nil, or_false] at hi
    rcases hi with rfl | rfl | rfl | rfl | rfl | rfl | rfl | rfl | rfl <;>
      simp only [choice, Kind.op.injEq, reduceCtorEq] at hk <;>
      subst hk <;> simp only [List.mem_cons, List.not_mem_nil, or_false] at hv
    · rcases hv with rfl | rfl <;> decide
    · rcases hv with rfl | rfl | rfl | rfl <;> first | decide | exact absurd rfl hvk
  · intro b d s h hs
    obtain ⟨h1, h2⟩ := graph_rev h
    refine ⟨h2, graph_fwd.2 ⟨?_, h1, hs⟩⟩
    simp only [List.mem_cons, List.not_mem_nil, or_false] at h1
    subst h1
    cases hs
    decide
  · intro b d s h hs
    obtain ⟨h1, h2⟩ := graph_rev h
    simp only [List.mem_cons, List.not_mem_nil, or_false] at h1
    subst h1
    cases hs
    simp [choice]

def choiceRank : Nat → Nat
  | 10 => 1 | 11 => 2 | 12 => 3 | 1 => 4 | 21 => 5 | 2 => 6 | 31 => 7 | 32 => 8 | 3 => 9 | _ => 0

theorem choice_straight : Straight choice := by
  refine ⟨by decide, ?_, ?_, ?_, ?_⟩
  · refine order_of_rank choiceRank (by decide) ?_
    intro j hj i hin
    rcases hin with ⟨ins, hk, hi⟩ | ⟨hk, d, hd, s, hs, hi⟩
    · simp only [choice, List.mem_cons, List.not_mem_nil, or_false] at hj
      rcases hj with rfl | rfl | rfl | rfl | rfl | rfl | rfl | rfl | rfl <;>
        simp only [choice, Kind.op.injEq, reduceCtorEq] at hk <;>
        subst hk <;> simp only [List.mem_cons, List.not_mem_nil, or_false] at hi
      · rcases hi with rfl | rfl <;> decide
      · rcases hi with rfl | rfl | rfl | rfl <;> decide
    · obtain ⟨h1, h2⟩ := graph_rev hd
      simp only [List.mem_cons, List.not_mem_nil, or_false] at h1
      subst h1
      cases hs
      rw [← h2]
      rcases hi with rfl | rfl <;> decide
  · intro i hi
    simp only [choice, List.mem_cons, List.not_mem_nil, or_false, not_or] at hi
    left
    unfold choice
    simp only
    split <;> simp_all
  · intro i v h
    unfold choice at h
    simp only at h
    split at h <;> simp at h
    subst h
    decide
  · intro b h
    by_cases hb : b ∈ [1, 2, 3]
    · simp only [List.mem_cons, List.not_mem_nil, or_false] at hb
      rcases hb with rfl | rfl | rfl <;> decide
    · exact absurd (by simp only [choice, graph, DepMap.get, if_neg hb]; rfl) h

/-- The hypotheses are met: the phi, which one of two values the input chooses, is divergent. -/
example : ∃ st, analyse choice = some st ∧ st.div 31 = 2 ∧ warned st 2 = true ∧
    warned st 3 = false := by
  obtain ⟨st, h⟩ := analysis_ends choice _ choice_ok
  have hx := fun i => levels_exact_partial choice _ choice_ok choice_straight h i
  have hb := fun i => (levels_justified choice _ choice_ok h i).1
  have f10 : Flows choice 10 2 := .load (i := 10) (v := ⟨.input, false, false, false⟩) rfl
  have f11 : Flows choice 11 2 := .operand (i := 11) (ins := [10, 90]) (v := 10) rfl (by simp) f10
  have f2 : Flows choice 2 2 :=
    .branch (b := 2) (d := dep 1 2 2) (s := 1) (l := 2) rfl (by decide) rfl f11
  have f31 : Flows choice 31 2 :=
    .operand (i := 31) (ins := [91, 1, 92, 2]) (v := 2) rfl (by simp) f2
  have h2 := (hx 2).1 2 f2
  have h31 := (hx 31).1 2 f31
  have b31 := hb 31
  refine ⟨st, h, by omega, by simp [warned]; omega, ?_⟩
  have h3 : st.div 3 = 0 := by
    refine Nat.eq_zero_of_not_pos fun hp => ?_
    have := (hx 3).2 hp
    generalize st.div 3 = l at this
    cases this with
    | control _ hd _ _ => simp [choice, graph, DepMap.get, dep] at hd
    | branch _ hd _ _ => simp [choice, graph, DepMap.get, dep] at hd
    | param hk => simp [choice] at hk
    | unknown hk => simp [choice] at hk
    | load hk => simp [choice] at hk
    | operand hk => simp [choice] at hk
  simp [warned, h3]

end Verif.Divergence
