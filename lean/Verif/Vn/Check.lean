import Verif.Vn.Props

/-
# A check that implies validity, for the concrete functions of `Example.lean`

`D b` lists blocks that dominate `b`.
-/

set_option linter.unusedSimpArgs false
set_option linter.unusedVariables false

namespace Verif.Vn

def domOK (P : Prog) (D : Block → List Block) : Bool :=
  P.order.all fun b => (b != P.entry || (D b).isEmpty) && (P.preds b).all fun p => (D b).all fun d =>
    d == p || (D p).contains d

theorem dom_spec {P : Prog} {D : Block → List Block} (hfin : ∀ c, c ∉ P.order → P.preds c = [])
    (he : P.entry ∈ P.order) (h : domOK P D = true) {t : List Pt} (ht : Trace P t) :
    ∀ b k s, t = (b, k) :: s → ∀ d ∈ D b, ∀ j ≤ (P.insts d).length, (d, j) ∈ s := by
  simp only [domOK, List.all_eq_true, Bool.and_eq_true] at h
  induction ht with
  | start =>
    intro b k s e d hd
    simp at e
    have := (h _ he).1
    simp at this
    rw [← e.1.1, this] at hd
    cases hd
  | @step b k t ht hk ih =>
    intro b' k' s e d hd j hj
    simp at e
    obtain ⟨⟨rfl, rfl⟩, rfl⟩ := e
    exact List.mem_cons_of_mem _ (ih b k t rfl d hd j hj)
  | @edge b k t c ht hk hp ih =>
    intro b' k' s e d hd j hj
    simp at e
    obtain ⟨⟨rfl, rfl⟩, rfl⟩ := e
    by_cases hc : c ∈ P.order
    · have := (h c hc).2 b hp d hd
      simp only [Bool.or_eq_true, beq_iff_eq, List.contains_iff_mem] at this
      rcases this with rfl | hm
      · subst hk
        exact trace_block ht j hj
      · exact List.mem_cons_of_mem _ (ih b k t rfl d hm j hj)
    · rw [hfin c hc] at hp; cases hp

/-- Position of the definition of `x` in a block. -/
def defPos (x : Id) (is : List Inst) : Option Nat :=
  if x = 0 then none else is.findIdx? fun i => i.result == x

def notDef (P : Prog) (x : Id) : Bool := x == 0 || P.order.all fun b => (defPos x (P.insts b)).isNone

def operandOK (P : Prog) (D : Block → List Block) (b : Block) (k : Nat) (x : Id) : Bool :=
  notDef P x || (match defPos x (P.insts b) with | some j => j < k | none => false) ||
    (D b).any fun d => (defPos x (P.insts d)).isSome

theorem defPos_some {P : Prog} {x : Id} {b : Block} {j : Nat} (h : defPos x (P.insts b) = some j) :
    ∃ i, (P.insts b)[j]? = some i ∧ i.result = x ∧ x ≠ 0 ∧ j < (P.insts b).length := by
  unfold defPos at h
  split at h
  · cases h
  · rename_i h0
    rw [List.findIdx?_eq_some_iff_getElem] at h
    obtain ⟨h1, h2, _⟩ := h
    exact ⟨_, List.getElem?_eq_getElem h1, by simpa using h2, h0, h1⟩

theorem notDef_spec {P : Prog} {x : Id} (h : notDef P x = true) (q : Pt) (hq : q.1 ∈ P.order) :
    ¬ DefAt P x q := by
  rintro ⟨i, h0, hr, k, hi, _⟩
  simp only [notDef, Bool.or_eq_true, beq_iff_eq, List.all_eq_true] at h
  rcases h with h | h
  · exact h0 h
  have := h q.1 hq
  simp only [defPos, h0, if_false, Option.isNone_iff_eq_none, List.findIdx?_eq_none_iff] at this
  have := this i (List.mem_of_getElem? hi)
  simp [hr] at this

theorem operandOK_spec {P : Prog} {D : Block → List Block} (hfin : ∀ c, c ∉ P.order → P.preds c = [])
    (he : P.entry ∈ P.order) (hD : domOK P D = true) {b : Block} {k : Nat} {x : Id}
    (h : operandOK P D b k x = true) {t : List Pt} (ht : Trace P ((b, k) :: t)) : OnTrace P x ((b, k) :: t) := by
  simp only [operandOK, Bool.or_eq_true, List.any_eq_true] at h
  rcases h with (h | h) | ⟨d, hd, h⟩
  · exact .inr (notDef_spec h)
  · left
    cases hp : defPos x (P.insts b) with
    | none => rw [hp] at h; cases h
    | some j =>
      rw [hp] at h
      simp at h
      obtain ⟨i, h1, h2, h3, _⟩ := defPos_some hp
      refine ⟨(b, if i.op = "OpPhi" then 0 else j + 1), trace_block ht _ ?_, i, h3, h2, j, h1, rfl⟩
      split <;> omega
  · left
    obtain ⟨j, hp⟩ := Option.isSome_iff_exists.1 h
    obtain ⟨i, h1, h2, h3, h4⟩ := defPos_some hp
    refine ⟨(d, if i.op = "OpPhi" then 0 else j + 1),
      List.mem_cons_of_mem _ (dom_spec hfin he hD ht b k t rfl d hd _ ?_), i, h3, h2, j, h1, rfl⟩
    split <;> omega

def uniqueOK (P : Prog) : Bool :=
  P.order.all fun b => P.order.all fun b' =>
    (List.range (P.insts b).length).all fun k => (List.range (P.insts b').length).all fun k' =>
      (b == b' && k == k') ||
        match (P.insts b)[k]?, (P.insts b')[k']? with
        | some i, some i' => i.result == 0 || i.result != i'.result
        | _, _ => true

def instOK (P : Prog) (D : Block → List Block) (b : Block) (k : Nat) (i : Inst) : Bool :=
  if i.op = "OpPhi" then
    i.result != 0 && (i.ops == (phiArgs i.ops).flatMap fun a => [.id a.1, .id a.2]) && b != P.entry &&
    ((P.insts b).take k).all (fun i' => i'.op == "OpPhi") &&
    (P.preds b).all (fun p => ((phiArgs i.ops).map Prod.snd).contains p) &&
    ((phiArgs i.ops).map Prod.snd).all (fun p => (P.preds b).contains p) &&
    (phiArgs i.ops).all (fun a => operandOK P D a.2 (P.insts a.2).length a.1 &&
      !((listing P).map Inst.result).contains a.2)
  else
    (ids i.ops).all (fun x => operandOK P D b k x) &&
    (i.result == 0 || (ids i.ops).all (fun x => !((listing P).map Inst.result).contains x ||
      (List.range (listing P).length).any fun n => (listing P)[n]? == some i &&
        (((listing P).take n).map Inst.result).contains x)) &&
    (i.op != "OpCopyObject" || match i.ops with | [.id _] => true | _ => false)

def validB (P : Prog) (D : Block → List Block) : Bool :=
  P.order.contains P.entry && (P.preds P.entry).isEmpty && decide P.order.Nodup && uniqueOK P &&
  domOK P D && (P.order.all fun b => (List.range (P.insts b).length).all fun k =>
    match (P.insts b)[k]? with
    | none => true
    | some i => instOK P D b k i)

theorem valid_of_check {P : Prog} {D : Block → List Block} (hfin : ∀ c, c ∉ P.order → P.preds c = [])
    (h : validB P D = true) : Valid P := by
  simp only [validB, Bool.and_eq_true] at h
  obtain ⟨⟨⟨⟨⟨h1, h2⟩, h3⟩, h4⟩, h5⟩, h6⟩ := h
  have he : P.entry ∈ P.order := by simpa using h1
  have hin : ∀ t, Trace P t → ∀ q ∈ t, q.1 ∈ P.order := by
    intro t ht
    induction ht with
    | start => intro q hq; simp at hq; subst hq; exact he
    | @step b k t h hk ih =>
      intro q hq
      rcases List.mem_cons.1 hq with rfl | hq
      · exact ih (b, k) (List.mem_cons_self ..)
      · exact ih q hq
    | @edge b k t c h hk hp ih =>
      intro q hq
      rcases List.mem_cons.1 hq with rfl | hq
      · by_cases hm : c ∈ P.order
        · exact hm
        · rw [hfin c hm] at hp; cases hp
      · exact ih q hq
  have hinst : ∀ b ∈ P.order, ∀ k i, (P.insts b)[k]? = some i → instOK P D b k i = true := by
    intro b hb k i hi
    simp only [List.all_eq_true, List.mem_range] at h6
    have := h6 b hb k (List.getElem?_eq_some_iff.1 hi).1
    rw [hi] at this
    exact this
  have hphi : ∀ b ∈ P.order, ∀ (k : Nat) (i : Inst), (P.insts b)[k]? = some i → i.op = "OpPhi" →
      i.result ≠ 0 ∧ (i.ops = (phiArgs i.ops).flatMap fun a => [.id a.1, .id a.2]) ∧ b ≠ P.entry ∧
      (∀ i' ∈ (P.insts b).take k, i'.op = "OpPhi") ∧ (∀ p, p ∈ P.preds b ↔ p ∈ (phiArgs i.ops).map Prod.snd) ∧
      (∀ a ∈ phiArgs i.ops, operandOK P D a.2 (P.insts a.2).length a.1 = true ∧
        a.2 ∉ (listing P).map Inst.result) := by
    intro b hb k i hi ho
    have := hinst b hb k i hi
    rw [instOK, if_pos ho] at this
    simp only [Bool.and_eq_true, bne_iff_ne, beq_iff_eq, List.all_eq_true, List.contains_iff_mem,
      Bool.not_eq_true', List.contains_eq_mem, decide_eq_false_iff_not] at this
    obtain ⟨⟨⟨⟨⟨⟨g1, g2⟩, g3⟩, g4⟩, g5⟩, g6⟩, g7⟩ := this
    exact ⟨g1, g2, g3, g4, fun p => ⟨fun h => by simpa using g5 p h, fun h => by simpa using g6 p h⟩, g7⟩
  have hnon : ∀ b ∈ P.order, ∀ (k : Nat) (i : Inst), (P.insts b)[k]? = some i → i.op ≠ "OpPhi" →
      (∀ x ∈ ids i.ops, operandOK P D b k x = true) ∧
      (i.result ≠ 0 → ∀ x ∈ ids i.ops, x ∈ (listing P).map Inst.result →
        ∃ n, (listing P)[n]? = some i ∧ x ∈ ((listing P).take n).map Inst.result) ∧
      (i.op = "OpCopyObject" → ∃ x, i.ops = [.id x]) := by
    intro b hb k i hi ho
    have := hinst b hb k i hi
    rw [instOK, if_neg ho] at this
    simp only [Bool.and_eq_true, List.all_eq_true] at this
    obtain ⟨⟨g1, g2⟩, g3⟩ := this
    refine ⟨g1, ?_, ?_⟩
    · intro h0 x hx hm
      simp only [Bool.or_eq_true, beq_iff_eq, h0, false_or, List.all_eq_true] at g2
      have := g2 x hx
      rcases this with h | h
      · simp only [Bool.not_eq_true', List.contains_eq_mem, decide_eq_false_iff_not] at h
        exact absurd hm h
      · simp only [List.any_eq_true, Bool.and_eq_true, beq_iff_eq, List.contains_iff_mem] at h
        obtain ⟨n, _, h1, h2⟩ := h
        exact ⟨n, h1, h2⟩
    · intro hc
      simp only [hc, bne_self_eq_false, Bool.false_or] at g3
      split at g3
      · rename_i x e; exact ⟨x, e⟩
      · cases g3
  constructor
  · exact he
  · simpa using h2
  · intro b _ c hc
    by_cases hm : c ∈ P.order
    · exact hm
    · rw [hfin c hm] at hc; cases hc
  · simpa using h3
  · intro b b' k k' i i' hb hb' hi hi' hr h0
    simp only [uniqueOK, List.all_eq_true, List.mem_range] at h4
    have := h4 b hb b' hb' k (List.getElem?_eq_some_iff.1 hi).1 k' (List.getElem?_eq_some_iff.1 hi').1
    rw [hi, hi'] at this
    simp only [hr] at this
    rw [hr] at h0
    simpa [h0] using this
  · intro b k t i x ht hi ho hx
    have hb := hin _ ht (b, k) (by simp)
    exact operandOK_spec hfin he h5 ((hnon b hb k i hi ho).1 x hx) ht
  · intro b k t i x ht hi ho h0 hx hm
    have hb := hin _ ht (b, k) (by simp)
    obtain ⟨n, h1, h2⟩ := (hnon b hb k i hi ho).2.1 h0 x hx hm
    obtain ⟨hn, h3⟩ := List.getElem?_eq_some_iff.1 h1
    refine ⟨(listing P).take n, (listing P).drop (n + 1), ?_, h2⟩
    rw [← h3, List.getElem_cons_drop, List.take_append_drop]
  · intro b k i hb hi ho
    have := hphi b hb k i hi ho
    exact ⟨this.1, this.2.1⟩
  · intro b k i hb hi ho
    have := hphi b hb k i hi ho
    refine ⟨this.2.2.1, fun j hj => ?_⟩
    have hk := (List.getElem?_eq_some_iff.1 hi).1
    refine ⟨(P.insts b)[j]'(by omega), List.getElem?_eq_getElem _, this.2.2.2.1 _ ?_⟩
    rw [List.mem_take_iff_getElem]
    exact ⟨j, by omega, rfl⟩
  · intro b k t i ht hi ho
    have hb := hin _ ht (b, 0) (by simp)
    exact (hphi b hb k i hi ho).2.2.2.2.1
  · intro b p k t i a ht hp hi ho ha e
    have hb : b ∈ P.order := by
      by_cases hm : b ∈ P.order
      · exact hm
      · rw [hfin b hm] at hp; cases hp
    subst e
    exact operandOK_spec hfin he h5 ((hphi b hb k i hi ho).2.2.2.2.2 a ha).1 ht
  · intro b k i a hb hi ho ha
    exact ((hphi b hb k i hi ho).2.2.2.2.2 a ha).2
  · intro b k i hb hi ho
    exact (hnon b hb k i hi (by rw [ho]; decide)).2.2 ho

def treeB (P : Prog) (D : Block → List Block) (root : Block) (children : Block → List Block) : Bool :=
  P.order.contains root && P.order.all (fun b => decide (children b).Nodup && !(children b).contains root &&
    (children b).all fun c => P.order.contains c && (D c).contains b && P.order.all fun b' =>
      b == b' || !(children b').contains c)

theorem tree_of_check {P : Prog} {D : Block → List Block} (hfin : ∀ c, c ∉ P.order → P.preds c = [])
    (he : P.entry ∈ P.order) (hD : domOK P D = true) {root : Block} {children : Block → List Block}
    (hc : ∀ b, b ∉ P.order → children b = []) (h : treeB P D root children = true) :
    DomTree P root children := by
  simp only [treeB, Bool.and_eq_true, List.all_eq_true, List.contains_iff_mem, decide_eq_true_eq,
    Bool.or_eq_true, beq_iff_eq, Bool.not_eq_true', List.contains_eq_mem, decide_eq_false_iff_not] at h
  obtain ⟨h1, h2⟩ := h
  have hin : ∀ b c, c ∈ children b → b ∈ P.order := by
    intro b c h
    by_cases hm : b ∈ P.order
    · exact hm
    · rw [hc b hm] at h; cases h
  refine ⟨by simpa using h1, ?_, ?_, ?_, ?_, ?_⟩
  · intro b c h hb
    simpa using ((h2 b hb).2 c h).1.1
  · intro b c t h ht
    have := ((h2 b (hin b c h)).2 c h).1.2
    exact dom_spec hfin he hD ht c 0 t rfl b (by simpa using this) _ (Nat.le_refl _)
  · intro b b' c h h'
    rcases ((h2 b (hin b c h)).2 c h).2 b' (hin b' c h') with e | e
    · exact e
    · exact absurd h' e
  · intro b
    by_cases hb : b ∈ P.order
    · exact (h2 b hb).1.1
    · rw [hc b hb]; simp
  · intro b h
    exact (h2 b (hin b _ h)).1.2 h

end Verif.Vn
