import Verif.Vn.Complete

/-
# C58: value numbering and redundancy elimination

`build` is `ValueNumberTable`, `elimLocal` the pass `--local-redundancy-elimination`,
`elimFrom` `--redundancy-elimination`.  `Clean` excludes the two instructions for which the
claims fail (`untyped_variables_merged`, `volatile_loads_merged` in `Example.lean`).
-/

namespace Verif.Vn

section
variable {Val : Type} {P : Prog} {S : Sem Val}

/-- Ids with the same value number have the same value wherever both are available, on
every execution: loops, phis, copies, commuted operands and unreachable code included. -/
theorem same_number_same_value_partial (hV : Valid P) (hC : Clean P) (hS : S.Ok P) (G : Id → Val)
    {q : Pt} {t : List Pt} (ht : Trace P (q :: t)) {x y : Id} (h0 : (build P).num x ≠ 0)
    (he : (build P).num x = (build P).num y) (hx : Av P q x) (hy : Av P q y) :
    run P S [] G (q :: t) x = run P S [] G (q :: t) y :=
  let ⟨_, hI⟩ := build_inv (listing_nodup hV)
  equal_values hV hI hC hS ht h0 he hx hy

/-- Local redundancy elimination: every instruction that is executed works on the same
operands as before, on every execution. -/
theorem local_elimination_partial (hV : Valid P) (hC : Clean P) (hS : S.Ok P) (G : Id → Val)
    {bs : List Block} (hbs : ∀ b ∈ bs, b ∈ P.order) (hn : bs.Nodup) {rep : List (Id × Id)}
    (hr : rep = elimLocal (build P).num P.insts bs)
    {b : Block} {k : Nat} {t : List Pt} (ht : Trace P ((b, k) :: t)) {i : Inst}
    (hi : (P.insts b)[k]? = some i) (ho : i.op ≠ "OpPhi") :
    i.ops.map (Opnd.eval rep (run P S rep G ((b, k) :: t))) =
      i.ops.map (Opnd.eval [] (run P S [] G ((b, k) :: t))) := by
  obtain ⟨B, hI⟩ := build_inv (listing_nodup hV)
  have hR : RepOK P rep := by
    have := (elimLocal_ok hV bs [] [] ⟨⟨by simp, by simp, by simp⟩, by simp, by simp⟩
      (by simpa using hbs) (by simpa using hn)).ok
    rw [hr]
    simpa using this
  exact eval_val hV hI hC hS hR ht (live_values hV hI hC hS hR t _ ht)
    (fun z hz t ht => hV.doms b k t i z ht hi ho hz)

/-- Redundancy elimination over the dominator tree: the same. -/
theorem global_elimination_partial (hV : Valid P) (hC : Clean P) (hS : S.Ok P) (G : Id → Val)
    {root : Block} {children : Block → List Block} (hT : DomTree P root children) {fuel : Nat}
    {rep : List (Id × Id)} (hr : elimFrom (build P).num P.insts children fuel [(root, [])] = some rep)
    {b : Block} {k : Nat} {t : List Pt} (ht : Trace P ((b, k) :: t)) {i : Inst}
    (hi : (P.insts b)[k]? = some i) (ho : i.op ≠ "OpPhi") :
    i.ops.map (Opnd.eval rep (run P S rep G ((b, k) :: t))) =
      i.ops.map (Opnd.eval [] (run P S [] G ((b, k) :: t))) := by
  obtain ⟨B, hI⟩ := build_inv (listing_nodup hV)
  have hR : RepOK P rep := by
    have := elimFrom_ok hV hT fuel [(root, [])] [] [] rep ⟨⟨by simp, by simp, by simp⟩, by simp, by simp⟩
      (by simp) (by simp [hT.root_mem]) (by simp) hr
    simpa using this
  exact eval_val hV hI hC hS hR ht (live_values hV hI hC hS hR t _ ht)
    (fun z hz t ht => hV.doms b k t i z ht hi ho hz)

/-- Every value that is still computed is the one computed before. -/
theorem global_elimination_values_partial (hV : Valid P) (hC : Clean P) (hS : S.Ok P) (G : Id → Val)
    {root : Block} {children : Block → List Block} (hT : DomTree P root children) {fuel : Nat}
    {rep : List (Id × Id)} (hr : elimFrom (build P).num P.insts children fuel [(root, [])] = some rep)
    {q : Pt} {t : List Pt} (ht : Trace P (q :: t)) {x : Id} (hx : rep.lookup x = none) :
    run P S rep G (q :: t) x = run P S [] G (q :: t) x := by
  obtain ⟨B, hI⟩ := build_inv (listing_nodup hV)
  have hR : RepOK P rep := by
    have := elimFrom_ok hV hT fuel [(root, [])] [] [] rep ⟨⟨by simp, by simp, by simp⟩, by simp, by simp⟩
      (by simp) (by simp [hT.root_mem]) (by simp) hr
    simpa using this
  exact live_values hV hI hC hS hR t _ ht x hx

end

/-- The walk over the dominator tree ends. -/
theorem global_elimination_ends {P : Prog} {num : Id → Nat} {insts : Block → List Inst} {root : Block}
    {children : Block → List Block} (hT : DomTree P root children) :
    ∃ rep, elimFrom num insts children P.order.length [(root, [])] = some rep :=
  elimFrom_total hT _ _ [] (by simp) (by simp [hT.root_mem]) (by simp)

/-- What is removed is never put in place of something: no use is left without definition. -/
theorem global_elimination_no_dangling {P : Prog} (hV : Valid P) {root : Block}
    {children : Block → List Block} (hT : DomTree P root children) {fuel : Nat} {rep : List (Id × Id)}
    (hr : elimFrom (build P).num P.insts children fuel [(root, [])] = some rep) (x : Id) :
    rep.lookup (use rep x) = none := by
  have hR : RepOK P rep := by
    have := elimFrom_ok hV hT fuel [(root, [])] [] [] rep ⟨⟨by simp, by simp, by simp⟩, by simp, by simp⟩
      (by simp) (by simp [hT.root_mem]) (by simp) hr
    simpa using this
  unfold use
  cases h : rep.lookup x with
  | none => simpa using h
  | some c => exact lookup_none.2 (hR.live _ (lookup_mem h))

/-- Two instructions with the same opcode, type, operands and decorations get the same
number, unless their results may differ. -/
theorem repeated_same_number {P : Prog} (hV : Valid P) {u v w : List Inst} {i j : Inst}
    (hl : listing P = u ++ i :: (v ++ j :: w)) (hi : ownNumber P i = false) (hj : ownNumber P j = false)
    (h1 : i.op ≠ "OpCopyObject") (h2 : i.op ≠ "OpPhi") (eo : j.op = i.op) (et : j.ty = i.ty)
    (eops : j.ops = i.ops) (ed : P.deco j.result = P.deco i.result)
    (hx : ∀ x ∈ ids i.ops, x ∈ (listing P).map Inst.result → x ∈ u.map Inst.result) :
    (build P).num j.result = (build P).num i.result :=
  (repeated_number hV hl hi hj h1 h2 eo et eops ed hx).1

/-- Of two instructions of a block with the same number, the second is removed. -/
theorem second_removed {num : Id → Nat} {pre is : List Inst} {m : List (Nat × Id)} {i j : Inst}
    (hj : j ∈ is) (h0 : i.result ≠ 0) (hn : num i.result ≠ 0) (hj0 : j.result ≠ 0)
    (he : num j.result = num i.result) :
    j.result ∈ (elimInsts num (pre ++ i :: is) m).1.map Prod.fst :=
  elimInsts_second pre m i is j hj h0 hn hj0 he

/-- And so it is when the first is in the parent of the block. -/
theorem second_removed_below {num : Id → Nat} {insts : Block → List Inst} {children : Block → List Block}
    {fuel : Nat} {b c : Block} {m : List (Nat × Id)} {rep : List (Id × Id)}
    (hr : elimFrom num insts children fuel [(b, m)] = some rep) (hc : c ∈ children b) {i j : Inst}
    (hi : i ∈ insts b) (hj : j ∈ insts c) (h0 : i.result ≠ 0) (hn : num i.result ≠ 0) (hj0 : j.result ≠ 0)
    (he : num j.result = num i.result) : j.result ∈ rep.map Prod.fst := by
  have hv := (elimFrom_visits fuel _ _ hr (b, m) (by simp)).2 c hc
  have hrec : ∀ (is : List Inst) (m : List (Nat × Id)), (i ∈ is ∨ (m.lookup (num i.result)).isSome) →
      ((elimInsts num is m).2.lookup (num i.result)).isSome := by
    intro is
    induction is with
    | nil => intro m h; rcases h with h | h; · cases h
             exact h
    | cons a is ih =>
      intro m h
      have hup : ∀ y, (m.lookup (num i.result)).isSome →
          (((num a.result, y) :: m).lookup (num i.result)).isSome := by
        intro y h
        rw [List.lookup_cons]
        split
        · rfl
        · exact h
      rw [elimInsts]
      split
      · rename_i hz
        refine ih m ?_
        rcases h with h | h
        · rcases List.mem_cons.1 h with rfl | h
          · rcases hz with hz | hz
            · exact absurd hz h0
            · exact absurd hz hn
          · exact .inl h
        · exact .inr h
      · split
        · rename_i c hc
          refine ih m ?_
          rcases h with h | h
          · rcases List.mem_cons.1 h with rfl | h
            · exact .inr (by rw [hc]; rfl)
            · exact .inl h
          · exact .inr h
        · refine ih _ ?_
          rcases h with h | h
          · rcases List.mem_cons.1 h with rfl | h
            · exact .inr (by simp [List.lookup_cons])
            · exact .inl h
          · exact .inr (hup _ h)
  have hs := hrec (insts b) m (.inl hi)
  have := elimInsts_kills (num := num) (insts c) (elimInsts num (insts b) m).2 j hj hj0 (by rw [he]; exact hn)
    (by rw [he]; exact hs)
  simp only [List.mem_map] at this ⊢
  obtain ⟨e, he, h⟩ := this
  exact ⟨e, hv e he, h⟩

end Verif.Vn
