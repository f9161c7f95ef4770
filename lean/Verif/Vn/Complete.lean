import Verif.Vn.Elim

/-
# Repeated instructions are found
-/

set_option linter.unusedSimpArgs false
set_option linter.unusedVariables false
set_option linter.unusedSectionVars false

namespace Verif.Vn

theorem assign_keep {P : Prog} {st : St} {i : Inst} {x : Id} (h : st.num x ≠ 0) :
    (assign P st i).num x = st.num x := by
  unfold assign
  split
  · rfl
  · rename_i h0
    have hx : x ≠ i.result := by rintro rfl; exact h (by simpa using h0)
    split
    · simp [newNum, setNum, hx]
    · split
      · simp [setNum, hx]
      · split
        · simp [setNum, hx]
        · split
          · simp [setNum, hx]
          · simp [newNum, setNum, addKey, hx]

theorem assign_table {P : Prog} {st : St} {i : Inst} : ∃ l, (assign P st i).table = st.table ++ l := by
  unfold assign
  split
  · exact ⟨[], by simp⟩
  · split
    · exact ⟨[], by simp [newNum, setNum]⟩
    · split
      · exact ⟨[], by simp [setNum]⟩
      · split
        · exact ⟨[], by simp [setNum]⟩
        · split
          · exact ⟨[], by simp [setNum]⟩
          · exact ⟨_, by simp [newNum, setNum, addKey]; rfl⟩

theorem foldl_keep {P : Prog} : ∀ (l : List Inst) {st : St} {x : Id}, st.num x ≠ 0 →
    (l.foldl (assign P) st).num x = st.num x
  | [], _, _, _ => rfl
  | i :: l, st, x, h => by
    rw [List.foldl_cons, foldl_keep l (by rw [assign_keep h]; exact h), assign_keep h]

theorem foldl_table {P : Prog} : ∀ (l : List Inst) {st : St}, ∃ l', (l.foldl (assign P) st).table = st.table ++ l'
  | [], _ => ⟨[], by simp⟩
  | i :: l, st => by
    obtain ⟨l1, h1⟩ := assign_table (P := P) (st := st) (i := i)
    obtain ⟨l2, h2⟩ := foldl_table l (st := assign P st i)
    exact ⟨l1 ++ l2, by rw [List.foldl_cons, h2, h1, List.append_assoc]⟩

/-- An instruction that is neither special, a copy nor a phi. -/
theorem assign_keyed {P : Prog} {st : St} {i : Inst} (h0 : st.num i.result = 0) (ho : ownNumber P i = false)
    (h1 : i.op ≠ "OpCopyObject") (h2 : i.op ≠ "OpPhi") :
    assign P st i = match seen P st i with
      | some e => setNum st i.result (st.num e.2)
      | none => newNum (addKey st (key st i) i.result) i.result := by
  unfold assign
  simp [h0, ho, copyNum, phiNum, h1, h2]
  cases seen P st i <;> rfl

theorem repeated_number {P : Prog} (hV : Valid P) {u v w : List Inst} {i j : Inst}
    (hl : listing P = u ++ i :: (v ++ j :: w)) (hi : ownNumber P i = false) (hj : ownNumber P j = false)
    (h1 : i.op ≠ "OpCopyObject") (h2 : i.op ≠ "OpPhi") (eo : j.op = i.op) (et : j.ty = i.ty)
    (eops : j.ops = i.ops) (ed : P.deco j.result = P.deco i.result)
    (hx : ∀ x ∈ ids i.ops, x ∈ (listing P).map Inst.result → x ∈ u.map Inst.result) :
    (build P).num j.result = (build P).num i.result ∧ (build P).num i.result ≠ 0 := by
  have hn := listing_nodup hV
  let z : St := ⟨fun _ => 0, [], 1⟩
  have hz : Inv P [] z ⟨fun _ => none, fun _ => 0, fun _ => []⟩ :=
    ⟨by simp [z], by simp [z], by simp, by simp [z]⟩
  have hpos : ∀ l r, listing P = l ++ r → ∃ B, Inv P l (l.foldl (assign P) z) B := by
    intro l r e
    have := foldl_inv l [] z _ hz (by simp [z]) (by
      rw [e, List.map_append, List.nodup_append] at hn
      simpa using hn.1)
    simpa using this
  obtain ⟨B0, hI0⟩ := hpos u _ hl
  obtain ⟨B1, hI1⟩ := hpos (u ++ [i]) (v ++ j :: w) (by rw [hl]; simp)
  obtain ⟨B2, hI2⟩ := hpos (u ++ i :: v) (j :: w) (by rw [hl]; simp)
  have hn' := hn
  rw [hl] at hn'
  simp only [List.map_append, List.map_cons, List.nodup_append, List.nodup_cons, List.mem_append,
    List.mem_cons, not_or] at hn'
  have hb : build P = w.foldl (assign P) (assign P ((u ++ i :: v).foldl (assign P) z) j) := by
    unfold build
    rw [hl]
    simp [List.foldl_append, z]
  have e2 : (u ++ i :: v).foldl (assign P) z = v.foldl (assign P) (assign P (u.foldl (assign P) z) i) := by
    simp [List.foldl_append]
  have e1 : (u ++ [i]).foldl (assign P) z = assign P (u.foldl (assign P) z) i := by simp [List.foldl_append]
  generalize hs0 : u.foldl (assign P) z = s0 at *
  rw [e1] at hI1
  generalize hs2 : (u ++ i :: v).foldl (assign P) z = s2 at *
  have hi0 : s0.num i.result = 0 := by
    have := hI0.pos i.result
    by_cases e : s0.num i.result = 0
    · exact e
    · exact absurd rfl (hn'.2.2 _ (this.1 e) i.result (.inl rfl))
  have hj0 : s2.num j.result = 0 := by
    have := hI2.pos j.result
    by_cases e : s2.num j.result = 0
    · exact e
    · have hm := this.1 e
      simp only [List.map_append, List.map_cons, List.mem_append, List.mem_cons] at hm
      rcases hm with hm | hm | hm
      · exact absurd rfl (hn'.2.2 _ hm j.result (.inr (.inr (.inl rfl))))
      · exact absurd hm.symm hn'.2.1.1.2.1
      · exact absurd rfl (hn'.2.1.2.2.2 _ hm j.result (.inl rfl))
  have hi1 : (assign P s0 i).num i.result ≠ 0 := (hI1.pos _).2 (by simp)
  have hsub : ∀ x, s0.num x ≠ 0 → s2.num x = s0.num x := by
    intro x hx
    rw [e2, foldl_keep v (by rw [assign_keep hx]; exact hx), assign_keep hx]
  -- the keys agree
  have hkey : key s2 j = key s0 i := by
    unfold key
    rw [eo, et, eops]
    congr 2
    apply List.map_congr_left
    intro o ho
    cases o with
    | lit ws => rfl
    | id x =>
      simp only [kop]
      by_cases e : s0.num x = 0
      · have : s2.num x = 0 := by
          by_cases e3 : s2.num x = 0
          · exact e3
          · have hm := (hI2.pos x).1 e3
            have := hx x (by simp only [ids, List.mem_filterMap]; exact ⟨_, ho, rfl⟩)
              (by
                rw [hl]
                simp only [List.map_append, List.map_cons, List.mem_append, List.mem_cons] at hm ⊢
                rcases hm with hm | hm | hm
                · exact .inl hm
                · exact .inr (.inl hm)
                · exact .inr (.inr (.inl hm)))
            exact absurd e ((hI0.pos x).2 this)
        rw [if_pos e, if_pos this]
      · rw [if_neg e, if_neg (by rw [hsub x e]; exact e), hsub x e]
  obtain ⟨l', hl'⟩ := foldl_table (P := P) v (st := assign P s0 i)
  rw [← e2] at hl'
  have hi2 : s2.num i.result = (assign P s0 i).num i.result := by rw [e2, foldl_keep v hi1]
  -- what `j` finds
  have hfound : ∃ e, seen P s2 j = some e ∧ s2.num e.2 = s2.num i.result := by
    unfold seen
    rw [hkey, ed, hl']
    rw [assign_keyed hi0 hi h1 h2] at hi2 ⊢
    cases hs : seen P s0 i with
    | some e =>
      rw [hs] at hi2
      simp only at hi2 ⊢
      refine ⟨e, ?_, ?_⟩
      · simp only [setNum, List.find?_append]
        unfold seen at hs
        rw [hs]; rfl
      · have he := (hI0.tbl e (List.mem_of_find?_eq_some hs)).1
        rw [hi2, hsub _ he]
        simp [setNum]
    | none =>
      rw [hs] at hi2
      simp only at hi2 ⊢
      refine ⟨(key s0 i, i.result), ?_, rfl⟩
      simp only [newNum, setNum, addKey, List.find?_append]
      unfold seen at hs
      rw [hs]
      simp
  obtain ⟨e, he1, he2⟩ := hfound
  have hj2 : (assign P s2 j).num j.result = s2.num i.result := by
    rw [assign_keyed hj0 hj (by rw [eo]; exact h1) (by rw [eo]; exact h2), he1]
    simp [setNum, he2]
  have hne : s2.num i.result ≠ 0 := by rw [hi2]; exact hi1
  have hij : (assign P s2 j).num i.result = s2.num i.result := assign_keep hne
  rw [hb, foldl_keep w (by rw [hj2]; exact hne), foldl_keep w (by rw [hij]; exact hne), hj2, hij]
  exact ⟨rfl, hne⟩

/-- The second of two instructions with the same number is removed. -/
theorem elimInsts_kills {num : Id → Nat} : ∀ (is : List Inst) (m : List (Nat × Id)) (j : Inst), j ∈ is →
    j.result ≠ 0 → num j.result ≠ 0 → (m.lookup (num j.result)).isSome →
    j.result ∈ (elimInsts num is m).1.map Prod.fst
  | [], _, _, h, _, _, _ => by cases h
  | i :: is, m, j, h, h0, hn, hm => by
    rw [elimInsts]
    rcases List.mem_cons.1 h with rfl | h
    · rw [if_neg (by simp [h0, hn])]
      cases hl : m.lookup (num j.result) with
      | none => rw [hl] at hm; cases hm
      | some c => simp
    · split
      · exact elimInsts_kills is m j h h0 hn hm
      · split
        · simp only [List.map_cons, List.mem_cons]
          exact .inr (elimInsts_kills is m j h h0 hn hm)
        · refine elimInsts_kills is _ j h h0 hn ?_
          rw [List.lookup_cons]
          split
          · rfl
          · exact hm

theorem elimInsts_second {num : Id → Nat} : ∀ (pre : List Inst) (m : List (Nat × Id)) (i : Inst) (is : List Inst) (j : Inst),
    j ∈ is → i.result ≠ 0 → num i.result ≠ 0 → j.result ≠ 0 → num j.result = num i.result →
    j.result ∈ (elimInsts num (pre ++ i :: is) m).1.map Prod.fst
  | [], m, i, is, j, hj, h0, hn, hj0, he => by
    rw [List.nil_append, elimInsts, if_neg (by simp [h0, hn])]
    split
    · rename_i c hc
      simp only [List.map_cons, List.mem_cons]
      exact .inr (elimInsts_kills is m j hj hj0 (by rw [he]; exact hn) (by rw [he, hc]; rfl))
    · exact elimInsts_kills is _ j hj hj0 (by rw [he]; exact hn) (by simp [he, List.lookup_cons])
  | a :: pre, m, i, is, j, hj, h0, hn, hj0, he => by
    rw [List.cons_append, elimInsts]
    split
    · exact elimInsts_second pre m i is j hj h0 hn hj0 he
    · split
      · simp only [List.map_cons, List.mem_cons]
        exact .inr (elimInsts_second pre m i is j hj h0 hn hj0 he)
      · exact elimInsts_second pre _ i is j hj h0 hn hj0 he

theorem nodup_length {l l' : List Block} (h : l.Nodup) (hs : ∀ x ∈ l, x ∈ l') : l.length ≤ l'.length := by
  induction l generalizing l' with
  | nil => simp
  | cons a l ih =>
    rw [List.nodup_cons] at h
    have hm := hs a List.mem_cons_self
    have := ih (l' := l'.erase a) h.2 (by
      intro x hx
      have hxa : x ≠ a := fun he => h.1 (he ▸ hx)
      exact (List.mem_erase_of_ne hxa).mpr (hs x (List.mem_cons_of_mem _ hx)))
    rw [List.length_erase_of_mem hm] at this
    have : 0 < l'.length := List.length_pos_of_mem hm
    simp only [List.length_cons]
    omega

/-- The walk over the tree ends, and visits what it is asked to. -/
theorem elimFrom_total {P : Prog} {num : Id → Nat} {insts : Block → List Inst} {root : Block}
    {children : Block → List Block} (hT : DomTree P root children) :
    ∀ (fuel : Nat) (todo : List (Block × List (Nat × Id))) (vis : List Block),
      (vis ++ todo.map Prod.fst).Nodup →
      (∀ c ∈ vis ++ todo.map Prod.fst, c ∈ P.order ∧ (c = root ∨ ∃ p ∈ vis, c ∈ children p)) →
      P.order.length ≤ vis.length + fuel → ∃ rep, elimFrom num insts children fuel todo = some rep
  | fuel, [], vis, _, _, _ => by cases fuel <;> simp [elimFrom]
  | 0, x :: todo, vis, hn, hm, hf => by
    have := nodup_length hn (fun c hc => (hm c hc).1)
    simp at this
    omega
  | fuel + 1, (b, m) :: todo, vis, hn, hm, hf => by
    have hbv : b ∉ vis := by
      rw [List.nodup_append] at hn
      intro hv
      exact hn.2.2 b hv b (by simp) rfl
    have hb := (hm b (by simp)).1
    have hchild : ∀ c ∈ children b, c ∉ vis ++ b :: todo.map Prod.fst := by
      intro c hc hin
      rcases (hm c (by simpa using hin)).2 with e | ⟨p, hp, hcp⟩
      · exact hT.root_top b (e ▸ hc)
      · exact hbv (hT.single _ _ _ hcp hc ▸ hp)
    have := elimFrom_total (num := num) (insts := insts) hT fuel
      (todo ++ (children b).map fun c => (c, (elimInsts num (insts b) m).2)) (vis ++ [b]) (by
        have e1 : (vis ++ [b]) ++ (todo ++ (children b).map fun c => (c, (elimInsts num (insts b) m).2)).map Prod.fst =
            (vis ++ b :: todo.map Prod.fst) ++ children b := by
          simp [List.map_map, Function.comp_def]
        rw [e1, List.nodup_append]
        refine ⟨by simpa using hn, hT.nodup b, ?_⟩
        rintro x hx y hy rfl
        exact hchild x hy hx) (by
        intro c hc
        simp only [List.map_append, List.map_map, List.mem_append, List.mem_map, Function.comp_def,
          List.mem_singleton] at hc
        have hup : ∀ c, (c = root ∨ ∃ p ∈ vis, c ∈ children p) →
            (c = root ∨ ∃ p ∈ vis ++ [b], c ∈ children p) := by
          rintro c (h | ⟨p, hp, h⟩)
          · exact .inl h
          · exact .inr ⟨p, by simp [hp], h⟩
        rcases hc with (hc | rfl) | ⟨x, hc, rfl⟩ | ⟨c', hc, rfl⟩
        · have := hm c (by simp [hc]); exact ⟨this.1, hup _ this.2⟩
        · have := hm c (by simp); exact ⟨this.1, hup _ this.2⟩
        · have := hm x.1 (by
            simp only [List.mem_append, List.mem_map, List.map_cons, List.mem_cons]
            exact .inr (.inr ⟨x, hc, rfl⟩))
          exact ⟨this.1, hup _ this.2⟩
        · exact ⟨hT.mem b _ hc hb, .inr ⟨b, by simp, hc⟩⟩) (by simp; omega)
    obtain ⟨rep, h⟩ := this
    exact ⟨_, by simp only [elimFrom, h]; rfl⟩

/-- What a visit to a child finds. -/
theorem elimFrom_visits {num : Id → Nat} {insts : Block → List Inst} {children : Block → List Block} :
    ∀ (fuel : Nat) (todo : List (Block × List (Nat × Id))) (rep : List (Id × Id)),
      elimFrom num insts children fuel todo = some rep → ∀ x ∈ todo,
      (∀ e ∈ (elimInsts num (insts x.1) x.2).1, e ∈ rep) ∧
      ∀ c ∈ children x.1, ∀ e ∈ (elimInsts num (insts c) (elimInsts num (insts x.1) x.2).2).1, e ∈ rep
  | fuel, [], _, _, x, hx => by cases hx
  | 0, _ :: _, _, h, _, _ => by simp [elimFrom] at h
  | fuel + 1, (b, m) :: todo, rep, h, x, hx => by
    simp only [elimFrom, Option.map_eq_some_iff] at h
    obtain ⟨rest, h, rfl⟩ := h
    have ih := elimFrom_visits fuel _ _ h
    rcases List.mem_cons.1 hx with rfl | hx
    · refine ⟨fun e he => List.mem_append_left _ he, fun c hc e he => ?_⟩
      exact List.mem_append_right _ ((ih _ (List.mem_append_right _ (List.mem_map.2 ⟨c, hc, rfl⟩))).1 e he)
    · have := ih x (List.mem_append_left _ hx)
      exact ⟨fun e he => List.mem_append_right _ (this.1 e he),
        fun c hc e he => List.mem_append_right _ (this.2 c hc e he)⟩

end Verif.Vn
