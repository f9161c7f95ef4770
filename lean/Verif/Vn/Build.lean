import Verif.Vn.Spec

/-
# What the table of value numbers says

Every number belongs to one instruction of its own, or to one key.
-/

set_option linter.unusedSimpArgs false
set_option linter.unusedVariables false

namespace Verif.Vn

/-- How an operand shows in a key, the ids in `u` being those numbered before. -/
inductive KopOK (num : Id → Nat) (u : List Id) : Opnd → KOp → Prop
  | lit (ws) : KopOK num u (.lit ws) (.lit ws)
  | num (x) : num x ≠ 0 → KopOK num u (.id x) (.num (num x))
  | raw (x) : x ∉ u → KopOK num u (.id x) (.raw x)

/-- What belongs to each number. -/
structure Base where
  key : Nat → Option Key
  crt : Nat → Id
  dc : Nat → List Nat

/-- Lists that agree element by element. -/
inductive All2 {α β : Type} (R : α → β → Prop) : List α → List β → Prop
  | nil : All2 R [] []
  | cons {a b l m} : R a b → All2 R l m → All2 R (a :: l) (b :: m)

theorem All2.mono {α β : Type} {R R' : α → β → Prop} {l : List α} {m : List β} (h : ∀ a b, R a b → R' a b)
    (H : All2 R l m) : All2 R' l m := by
  induction H with
  | nil => exact .nil
  | cons h1 _ ih => exact .cons (h _ _ h1) ih

theorem all2_map {α β : Type} {R : α → β → Prop} {f : α → β} (h : ∀ a, R a (f a)) :
    ∀ l : List α, All2 R l (l.map f)
  | [] => .nil
  | a :: l => .cons (h a) (all2_map h l)

/-- The number of `i` belongs to its key, the operands in it being `ks`. -/
structure Keyed (P : Prog) (num : Id → Nat) (B : Base) (u : List Id) (i : Inst) (ks : List KOp) : Prop where
  own : ownNumber P i = false
  key : B.key (num i.result) = some ⟨i.op, i.ty, normal i.op ks⟩
  ops : All2 (KopOK num u) i.ops ks
  dc : B.dc (num i.result) = P.deco i.result
  lt : ∀ m, .num m ∈ ks → m < num i.result

/-- Why an instruction has its number. -/
inductive Reason (P : Prog) (num : Id → Nat) (B : Base) (u : List Id) (i : Inst) : Prop
  | own : B.key (num i.result) = none → B.crt (num i.result) = i.result → Reason P num B u i
  | copy (x rest) : i.op = "OpCopyObject" → i.ops = .id x :: rest → num x = num i.result →
      Reason P num B u i
  | phi : i.op = "OpPhi" → (∀ a ∈ phiArgs i.ops, num a.1 = num i.result) → Reason P num B u i
  | keyed (ks : List KOp) : Keyed P num B u i ks → Reason P num B u i

theorem KopOK.mono {num num' : Id → Nat} {u : List Id} {o : Opnd} {k : KOp}
    (hn : ∀ x, num x ≠ 0 → num' x = num x) (h : KopOK num u o k) : KopOK num' u o k := by
  cases h with
  | lit ws => exact .lit ws
  | num x hx => rw [← hn x hx]; exact .num x (by rw [hn x hx]; exact hx)
  | raw x hx => exact .raw x hx

theorem Reason.mono {P : Prog} {num num' : Id → Nat} {B B' : Base} {u : List Id} {i : Inst}
    (hn : ∀ x, num x ≠ 0 → num' x = num x) (h0 : num i.result ≠ 0)
    (hk : B'.key (num i.result) = B.key (num i.result)) (hc : B'.crt (num i.result) = B.crt (num i.result))
    (hd : B'.dc (num i.result) = B.dc (num i.result)) (h : Reason P num B u i) :
    Reason P num' B' u i := by
  cases h with
  | own h1 h2 => exact .own (by rw [hn _ h0, hk, h1]) (by rw [hn _ h0, hc, h2])
  | copy x rest h1 h2 h3 =>
    exact .copy x rest h1 h2 (by rw [hn _ h0, hn x (by rw [h3]; exact h0), h3])
  | phi h1 h2 =>
    exact .phi h1 (fun a ha => by
      have := h2 a ha
      rw [hn _ h0, hn _ (by rw [this]; exact h0), this])
  | keyed ks h =>
    exact .keyed ks ⟨h.own, by rw [hn _ h0, hk, h.key], h.ops.mono (fun o k h => h.mono hn),
      by rw [hn _ h0, hd, h.dc], fun m hm => by rw [hn _ h0]; exact h.lt m hm⟩

structure Inv (P : Prog) (u : List Inst) (st : St) (B : Base) : Prop where
  pos : ∀ x, st.num x ≠ 0 ↔ x ∈ u.map Inst.result
  lt : ∀ x, st.num x < st.next
  reasons : ∀ u1 i w, u = u1 ++ i :: w → Reason P st.num B (u1.map Inst.result) i
  tbl : ∀ e ∈ st.table, st.num e.2 ≠ 0 ∧ B.key (st.num e.2) = some e.1 ∧
    B.dc (st.num e.2) = P.deco e.2 ∧ ∀ m, KOp.num m ∈ e.1.ops → m < st.num e.2

theorem append_one_cases {α} {u u1 w : List α} {i j : α} (h : u ++ [i] = u1 ++ j :: w) :
    (w = [] ∧ u1 = u ∧ j = i) ∨ ∃ w', w = w' ++ [i] ∧ u = u1 ++ j :: w' := by
  rcases List.eq_nil_or_concat w with rfl | ⟨w', a, rfl⟩
  · left
    have := List.append_inj' (s₁ := u) (s₂ := u1) (t₁ := [i]) (t₂ := [j]) h rfl
    simp at this
    exact ⟨rfl, this.1.symm, this.2.symm⟩
  · right
    have h' : u ++ [i] = (u1 ++ j :: w') ++ [a] := by simpa using h
    have := List.append_inj' h' rfl
    simp at this
    exact ⟨w', by simp [this.2], this.1⟩

theorem mem_normal {op : String} {ks : List KOp} {k : KOp} : k ∈ normal op ks ↔ k ∈ ks := by
  unfold normal
  split
  · split <;> simp [or_comm]
  · rfl

theorem kop_ok {P : Prog} {u : List Inst} {st : St} {B : Base} (h : Inv P u st B) (o : Opnd) :
    KopOK st.num (u.map Inst.result) o (kop st o) := by
  cases o with
  | lit ws => exact .lit ws
  | id x =>
    simp only [kop]
    split
    · rename_i h0
      exact .raw x (fun hm => (h.pos x).2 hm h0)
    · rename_i h0
      exact .num x h0

theorem kop_lt {P : Prog} {u : List Inst} {st : St} {B : Base} (h : Inv P u st B) (i : Inst) (m : Nat)
    (hm : KOp.num m ∈ i.ops.map (kop st)) : m < st.next := by
  simp only [List.mem_map] at hm
  obtain ⟨o, ho, e⟩ := hm
  cases o with
  | lit ws => simp [kop] at e
  | id x =>
    simp only [kop] at e
    split at e
    · cases e
    · cases e; exact h.lt x

/-- A number given again. -/
theorem Inv.old {P : Prog} {u : List Inst} {st : St} {B : Base} (h : Inv P u st B) {i : Inst}
    (hr : i.result ∉ u.map Inst.result) {n : Nat} (hn : n ≠ 0) (hlt : n < st.next)
    (hR : Reason P (setNum st i.result n).num B (u.map Inst.result) i) :
    Inv P (u ++ [i]) (setNum st i.result n) B := by
  have hz : st.num i.result = 0 := by
    by_cases h0 : st.num i.result = 0
    · exact h0
    · exact absurd ((h.pos _).1 h0) hr
  have hmono : ∀ x, st.num x ≠ 0 → (setNum st i.result n).num x = st.num x := by
    intro x hx
    have : x ≠ i.result := by rintro rfl; exact hx hz
    simp [setNum, this]
  refine ⟨?_, ?_, ?_, ?_⟩
  · intro x
    by_cases e : x = i.result
    · simp [setNum, e, hn]
    · have := h.pos x
      simp [setNum, e, this]
  · intro x
    by_cases e : x = i.result
    · simpa [setNum, e] using hlt
    · simpa [setNum, e] using h.lt x
  · intro u1 j w e
    rcases append_one_cases e with ⟨rfl, rfl, rfl⟩ | ⟨w', rfl, e'⟩
    · exact hR
    · have h0 : st.num j.result ≠ 0 := (h.pos _).2 (by rw [e']; simp)
      exact (h.reasons u1 j w' e').mono hmono h0 rfl rfl rfl
  · intro e he
    obtain ⟨h1, h2, h3, h4⟩ := h.tbl e he
    rw [hmono _ h1]
    exact ⟨h1, h2, h3, h4⟩

/-- A new number. -/
theorem Inv.new {P : Prog} {u : List Inst} {st : St} {B : Base} (h : Inv P u st B) {i : Inst}
    (hr : i.result ∉ u.map Inst.result) (hpos : 1 ≤ st.next) (ko : Option Key)
    (tb : List (Key × Id)) (htb : ∀ e ∈ tb, e ∈ st.table ∨ e.2 = i.result ∧ ko = some e.1 ∧
      ∀ m, KOp.num m ∈ e.1.ops → m < st.next)
    (hR : ∀ B' : Base, B'.key st.next = ko → B'.crt st.next = i.result → B'.dc st.next = P.deco i.result →
      Reason P (newNum { st with table := tb } i.result).num B' (u.map Inst.result) i) :
    ∃ B', Inv P (u ++ [i]) (newNum { st with table := tb } i.result) B' := by
  have hz : st.num i.result = 0 := by
    by_cases h0 : st.num i.result = 0
    · exact h0
    · exact absurd ((h.pos _).1 h0) hr
  have hmono : ∀ x, st.num x ≠ 0 → (newNum { st with table := tb } i.result).num x = st.num x := by
    intro x hx
    have : x ≠ i.result := by rintro rfl; exact hx hz
    simp [newNum, setNum, this]
  refine ⟨⟨fun n => if n = st.next then ko else B.key n, fun n => if n = st.next then i.result else B.crt n,
    fun n => if n = st.next then P.deco i.result else B.dc n⟩, ?_, ?_, ?_, ?_⟩
  · intro x
    by_cases e : x = i.result
    · simp [newNum, setNum, e]; omega
    · have := h.pos x
      simp [newNum, setNum, e, this]
  · intro x
    by_cases e : x = i.result
    · simp [newNum, setNum, e]
    · have := h.lt x
      simp [newNum, setNum, e]; omega
  · intro u1 j w e
    rcases append_one_cases e with ⟨rfl, rfl, rfl⟩ | ⟨w', rfl, e'⟩
    · exact hR _ (by simp) (by simp) (by simp)
    · have h0 : st.num j.result ≠ 0 := (h.pos _).2 (by rw [e']; simp)
      have hne : st.num j.result ≠ st.next := by have := h.lt j.result; omega
      exact (h.reasons u1 j w' e').mono hmono h0 (by simp [hne]) (by simp [hne]) (by simp [hne])
  · intro e he
    rcases htb e he with he | ⟨e1, e2, e3⟩
    · obtain ⟨h1, h2, h3, h4⟩ := h.tbl e he
      have hne : st.num e.2 ≠ st.next := by have := h.lt e.2; omega
      rw [hmono _ h1]
      exact ⟨h1, by simp [hne, h2], by simp [hne, h3], h4⟩
    · have : (newNum { st with table := tb } i.result).num e.2 = st.next := by simp [newNum, setNum, e1]
      rw [this]
      exact ⟨by omega, by simp [e2], by simp [e1], e3⟩

theorem assign_inv {P : Prog} {u : List Inst} {st : St} {B : Base} (h : Inv P u st B) (hpos : 1 ≤ st.next)
    {i : Inst} (hr : i.result ∉ u.map Inst.result) :
    (∃ B', Inv P (u ++ [i]) (assign P st i) B') ∧ 1 ≤ (assign P st i).next := by
  have hz : st.num i.result = 0 := by
    by_cases h0 : st.num i.result = 0
    · exact h0
    · exact absurd ((h.pos _).1 h0) hr
  unfold assign
  rw [if_neg (by simp [hz])]
  split
  · rename_i hown
    refine ⟨?_, by simp [newNum, setNum]⟩
    refine h.new hr hpos none st.table (fun e he => .inl he) ?_
    intro B' h1 h2 _
    exact .own (by simpa [newNum, setNum] using h1) (by simpa [newNum, setNum] using h2)
  · rename_i hown
    split
    · rename_i hc
      refine ⟨⟨B, ?_⟩, by simpa [setNum] using hpos⟩
      have : ∃ x rest, i.op = "OpCopyObject" ∧ i.ops = .id x :: rest ∧ copyNum P st i = st.num x := by
        revert hc
        unfold copyNum
        split
        · rename_i ho
          split
          · rename_i x rest e
            split
            · intro _; exact ⟨x, rest, ho, e, rfl⟩
            · intro hc; exact absurd rfl hc
          · intro hc; exact absurd rfl hc
        · intro hc; exact absurd rfl hc
      obtain ⟨x, rest, ho, e, en⟩ := this
      refine h.old hr hc (by rw [en]; exact h.lt x) ?_
      have hx : x ≠ i.result := by rintro rfl; rw [en, hz] at hc; exact hc rfl
      exact .copy x rest ho e (by simp [setNum, hx, en])
    · split
      · rename_i hc
        refine ⟨⟨B, ?_⟩, by simpa [setNum] using hpos⟩
        have : i.op = "OpPhi" ∧ (∀ a ∈ phiArgs i.ops, st.num a.1 = phiNum P st i) ∧
            phiNum P st i < st.next := by
          revert hc
          unfold phiNum
          split
          · rename_i ho
            split
            · rename_i x l rest e
              split
              · rename_i hd
                intro _
                refine ⟨ho, ?_, h.lt x⟩
                intro a ha
                rw [e] at ha
                rcases List.mem_cons.1 ha with rfl | ha
                · rfl
                · simpa using List.all_eq_true.1 hd.2 a ha
              · intro hc; exact absurd rfl hc
            · intro hc; exact absurd rfl hc
          · intro hc; exact absurd rfl hc
        obtain ⟨ho, ha, hl⟩ := this
        refine h.old hr hc hl ?_
        refine .phi ho (fun a hm => ?_)
        have e := ha a hm
        have hx : a.1 ≠ i.result := by intro e'; rw [e', hz] at e; exact hc e.symm
        simp [setNum, hx, e]
      · split
        · rename_i e hs
          refine ⟨⟨B, ?_⟩, by simpa [setNum] using hpos⟩
          have hm := List.mem_of_find?_eq_some hs
          have hp := List.find?_some hs
          simp only [Bool.and_eq_true, beq_iff_eq] at hp
          obtain ⟨h1, h2, h3, h4⟩ := h.tbl e hm
          have hx : e.2 ≠ i.result := by intro e'; rw [e', hz] at h1; exact h1 rfl
          refine h.old hr h1 (h.lt _) ?_
          have en : (setNum st i.result (st.num e.2)).num i.result = st.num e.2 := by simp [setNum]
          refine .keyed (i.ops.map (kop st)) ⟨by simpa using hown, ?_, all2_map (fun o => ?_) _, ?_, ?_⟩
          · rw [en, h2, hp.1]; rfl
          · refine (kop_ok h o).mono ?_
            intro x hx
            have : x ≠ i.result := by rintro rfl; exact hx hz
            simp [setNum, this]
          · rw [en, h3, hp.2]
          · intro m hm
            rw [en]
            refine h4 m ?_
            rw [hp.1]
            exact mem_normal.2 hm
        · rename_i hs
          refine ⟨?_, by simp [newNum, setNum, addKey]⟩
          refine h.new hr hpos (some (key st i)) (st.table ++ [(key st i, i.result)]) ?_ ?_
          · intro e he
            rcases List.mem_append.1 he with he | he
            · exact .inl he
            · simp at he
              subst he
              refine .inr ⟨rfl, rfl, ?_⟩
              intro m hm
              exact kop_lt h i m (mem_normal.1 hm)
          · intro B' h1 _ h3
            have en : (newNum { st with table := st.table ++ [(key st i, i.result)] } i.result).num i.result
                = st.next := by simp [newNum, setNum]
            refine .keyed (i.ops.map (kop st)) ⟨by simpa using hown, ?_, all2_map (fun o => ?_) _, ?_, ?_⟩
            · rw [en, h1]; rfl
            · refine (kop_ok h o).mono ?_
              intro x hx
              have : x ≠ i.result := by rintro rfl; exact hx hz
              simp [newNum, setNum, this]
            · rw [en, h3]
            · intro m hm
              rw [en]
              exact kop_lt h i m hm

theorem foldl_inv {P : Prog} : ∀ (l u : List Inst) (st : St) (B : Base), Inv P u st B → 1 ≤ st.next →
    ((u ++ l).map Inst.result).Nodup → ∃ B', Inv P (u ++ l) (l.foldl (assign P) st) B'
  | [], u, st, B, h, _, _ => ⟨B, by simpa using h⟩
  | i :: l, u, st, B, h, hp, hn => by
    have hr : i.result ∉ u.map Inst.result := by
      intro hm
      rw [List.map_append, List.nodup_append] at hn
      exact hn.2.2 _ hm i.result (by simp) rfl
    obtain ⟨⟨B', h'⟩, hp'⟩ := assign_inv h hp hr
    have := foldl_inv l (u ++ [i]) _ B' h' hp' (by simpa using hn)
    simpa using this

theorem build_inv {P : Prog} (hn : ((listing P).map Inst.result).Nodup) :
    ∃ B, Inv P (listing P) (build P) B := by
  have := foldl_inv (P := P) (listing P) [] ⟨fun _ => 0, [], 1⟩ ⟨fun _ => none, fun _ => 0, fun _ => []⟩
    ⟨by simp, by simp, by simp, by simp⟩ (by simp) (by simpa using hn)
  simpa [build] using this

theorem listing_nodup {P : Prog} (hV : Valid P) : ((listing P).map Inst.result).Nodup := by
  unfold listing List.Nodup
  rw [List.pairwise_map, List.pairwise_filter, List.pairwise_flatMap]
  constructor
  · intro b hb
    rw [List.pairwise_iff_getElem]
    intro k k' hk hk' hlt h1 h2 e
    have := hV.unique b b k k' _ _ hb hb (List.getElem?_eq_getElem hk) (List.getElem?_eq_getElem hk') e
      (by simpa using h1)
    omega
  · rw [List.pairwise_iff_getElem]
    intro a a' ha ha' hlt i hi i' hi' h1 h2 e
    obtain ⟨k, hk⟩ := List.getElem?_of_mem hi
    obtain ⟨k', hk'⟩ := List.getElem?_of_mem hi'
    have := hV.unique _ _ k k' _ _ (List.getElem_mem ha) (List.getElem_mem ha') hk hk' e (by simpa using h1)
    have hd := (List.pairwise_iff_getElem.1 hV.nodup) a a' ha ha' hlt
    exact hd this.1

end Verif.Vn
