import Verif.CombineAccess.Lemmas
set_option linter.unusedSimpArgs false
set_option linter.unusedVariables false

namespace Verif.CombineAccess

open Spec

theorem setDef_get (m : Mod) (d : Id) (x : Def) (y : Id) :
    (setDef m d x).defn y = if y = d then some x else m.defn y := rfl

theorem locate_setDef (L : Layout) (m : Mod) (V : Vals) (d : Id) (x : Def) (c : Chain) :
    locate L (setDef m d x) V c = locate L m V c :=
  locate_congr L m _ V V c (fun _ _ => rfl) rfl rfl rfl

/-- Replacing an access chain by one with the same value. -/
theorem right_chain {L : Layout} {m : Mod} {V : Vals} (hR : Right L m V) (d : Id) (c : Chain)
    (hc : locate L m V c = some (m.pty d, V.addr d)) : Right L (setDef m d (.chain c)) V := by
  refine ⟨hR.cst, ?_, ?_, ?_⟩
  · intro y c' h
    rw [locate_setDef]
    rw [setDef_get] at h
    split at h
    · rename_i e
      cases h
      rw [e]
      exact hc
    · exact hR.chain y c' h
  · intro y s h
    rw [setDef_get] at h
    split at h
    · exact absurd h (by simp)
    · exact hR.copy y s h
  · intro y a b h
    rw [setDef_get] at h
    split at h
    · exact absurd h (by simp)
    · exact hR.add y a b h

theorem right_copy {L : Layout} {m : Mod} {V : Vals} (hR : Right L m V) (d s : Id)
    (hc : V.addr d = V.addr s) : Right L (setDef m d (.copy s)) V := by
  refine ⟨hR.cst, ?_, ?_, ?_⟩
  · intro y c' h
    rw [locate_setDef]
    rw [setDef_get] at h
    split at h
    · exact absurd h (by simp)
    · exact hR.chain y c' h
  · intro y s' h
    rw [setDef_get] at h
    split at h
    · rename_i e
      cases h
      rw [e]
      exact hc
    · exact hR.copy y s' h
  · intro y a b h
    rw [setDef_get] at h
    split at h
    · exact absurd h (by simp)
    · exact hR.add y a b h

/-- Following more indices from where a chain leads. -/
theorem locate_more {L : Layout} {m : Mod} {V : Vals} (f : Chain) (js : List Id)
    (hne : f.ptr = true → f.idx ≠ []) :
    locate L m V { f with idx := f.idx ++ js } =
      (locate L m V f).bind fun p => walk L m V p.1 p.2 js := by
  obtain ⟨p, ib, b, idx⟩ := f
  cases p with
  | false => simp [locate, walk_append]
  | true =>
    cases idx with
    | nil => exact absurd rfl (hne rfl)
    | cons e rest => simp [locate, walk_append]

theorem locate_inb (L : Layout) (m : Mod) (V : Vals) (p i i' : Bool) (b : Id) (idx : List Id) :
    locate L m V ⟨p, i, b, idx⟩ = locate L m V ⟨p, i', b, idx⟩ := rfl

/-- A located pointer access chain has an element operand. -/
theorem locate_ne {L : Layout} {m : Mod} {V : Vals} {c : Chain} {q : Ty × Int}
    (h : locate L m V c = some q) : c.ptr = true → c.idx ≠ [] := by
  intro hp e
  simp [locate, hp, e] at h

/-- The values with one more: the new id has the sum of the bits. -/
def withSum (V : Vals) (n l e : Id) : Vals where
  bits := fun x => if x = n then V.bits l + V.bits e else V.bits x
  addr := V.addr

/-- `combineIndices` only adds a definition for the sum. -/
theorem combineIndices_right {L : Layout} {m m' : Mod} {V : Vals} (hR : Right L m V)
    (hF : Fresh m) {f : Chain} {l e n : Id} (hl : l < m.next) (he : e < m.next)
    (h : combineIndices m f l e = some (m', n)) :
    n = m.next ∧ m'.pty = m.pty ∧ m'.stride = m.stride ∧ m'.sgn n = m.sgn l ∧
      (∀ i, i < m.next → m'.sgn i = m.sgn i) ∧
      Right L m' (withSum V n l e) := by
  have hnum : ∀ (m' : Mod) (i : Id), i < m.next → m'.sgn i = m.sgn i →
      num m' (withSum V m.next l e) i = num m V i := by
    intro m' i hi hs
    have : i ≠ m.next := Nat.ne_of_lt hi
    simp [num, withSum, this, hs]
  have hloc : ∀ (m' : Mod) (d : Id) (c : Chain), m.defn d = some (.chain c) → m'.pty = m.pty →
      m'.stride = m.stride → (∀ i, i < m.next → m'.sgn i = m.sgn i) →
      locate L m' (withSum V m.next l e) c = some (m'.pty d, V.addr d) := by
    intro m' d c hd hp hs hg
    rw [locate_congr L m m' V (withSum V m.next l e) c
      (fun i hi => hnum m' i (hF.chain d c hd i hi) (hg i (hF.chain d c hd i hi))) hp hs rfl, hp]
    exact hR.chain d c hd
  have hln : l ≠ m.next := Nat.ne_of_lt hl
  have hen : e ≠ m.next := Nat.ne_of_lt he
  unfold combineIndices at h
  simp only at h
  split at h
  · rename_i a b ha hb
    cases h
    refine ⟨rfl, rfl, rfl, by simp, fun i hi => by simp [Nat.ne_of_lt hi], ?_, ?_, ?_, ?_⟩
    · intro x c hx
      simp only at hx
      by_cases hxn : x = m.next
      · rw [if_pos hxn] at hx
        cases hx
        simp [withSum, hxn, hR.cst l a ha, hR.cst e b hb]
      · rw [if_neg hxn] at hx
        simp [withSum, hxn, hR.cst x c hx]
    · intro d c hd
      exact hloc _ d c hd rfl rfl (fun i hi => by simp [Nat.ne_of_lt hi])
    · exact hR.copy
    · intro d a' b' hd
      have hu := hF.add d a' b' hd
      have hdn : d ≠ m.next := by
        intro he'
        rw [he', hF.defn m.next (Nat.le_refl _)] at hd
        exact absurd hd (by simp)
      simp [withSum, hdn, Nat.ne_of_lt hu.1, Nat.ne_of_lt hu.2, hR.add d a' b' hd]
  · split at h
    · cases h
      refine ⟨rfl, rfl, rfl, by simp, fun i hi => by simp [Nat.ne_of_lt hi], ?_, ?_, ?_, ?_⟩
      · intro x c hx
        have hxn : x ≠ m.next := by
          intro e'
          have : m.cst x = some c := hx
          rw [e', hF.cst m.next (Nat.le_refl _)] at this
          exact absurd this (by simp)
        simp [withSum, hxn, hR.cst x c hx]
      · intro d c hd
        simp only at hd
        split at hd
        · exact absurd hd (by simp)
        · exact hloc _ d c hd rfl rfl (fun i hi => by simp [Nat.ne_of_lt hi])
      · intro d s hd
        simp only at hd
        split at hd
        · exact absurd hd (by simp)
        · exact hR.copy d s hd
      · intro d a' b' hd
        simp only at hd
        split at hd
        · rename_i hdn
          cases hd
          simp [withSum, hdn, hln, hen]
        · rename_i hdn
          have hu := hF.add d a' b' hd
          simp [withSum, hdn, Nat.ne_of_lt hu.1, Nat.ne_of_lt hu.2, hR.add d a' b' hd]
    · exact absurd h (by simp)

theorem getLast_split {l : List Id} {x : Id} (h : l.getLast? = some x) :
    l = l.dropLast ++ [x] := by
  have hne : l ≠ [] := by
    intro e
    simp [e] at h
  have hx : l.getLast hne = x := by
    rw [List.getLast?_eq_some_getLast hne] at h
    exact Option.some.inj h
  rw [← hx]
  exact (List.dropLast_concat_getLast hne).symm

/-- The chain with the sum leads where the two chains lead. -/
theorem locate_sum {L : Layout} {m m' : Mod} {V : Vals} (hR : Right L m V) (hF : Fresh m)
    {d : Id} {c f : Chain} {init rest : List Id} {l e : Id}
    (hd : m.defn d = some (.chain c)) (hf : m.defn c.base = some (.chain f))
    (hp : c.ptr = true) (hi : f.idx = init ++ [l]) (hc : c.idx = e :: rest)
    (hS : Steps L m V d) (ib : Bool)
    (hpty : m'.pty = m.pty) (hst : m'.stride = m.stride) (hsn : m'.sgn m.next = m.sgn l)
    (hsg : ∀ i, i < m.next → m'.sgn i = m.sgn i) :
    locate L m' (withSum V m.next l e) ⟨f.ptr, ib, f.base, init ++ m.next :: rest⟩ =
      some (m.pty d, V.addr d) := by
  obtain ⟨-, hS2⟩ := hS c f hd hp hf
  obtain ⟨hfit, hone, harr⟩ := hS2 init l e rest hi hc
  have hbase := hR.chain _ _ hf
  have htop := hR.chain _ _ hd
  have hlt : ∀ i ∈ f.idx, i < m.next := hF.chain _ _ hf
  have hlt' : ∀ i ∈ c.idx, i < m.next := hF.chain _ _ hd
  have hl : l < m.next := hlt l (by simp [hi])
  have he : e < m.next := hlt' e (by simp [hc])
  have hnum : ∀ i, i < m.next → num m' (withSum V m.next l e) i = num m V i := by
    intro i hi'
    have : i ≠ m.next := Nat.ne_of_lt hi'
    simp [num, withSum, this, hsg i hi']
  have hnn : num m' (withSum V m.next l e) m.next = num m V l + num m V e := by
    have := num_add (m.sgn l) (m.sgn e) (V.bits l) (V.bits e) _ rfl hfit
    show (if m'.sgn m.next then _ else _) = _
    rw [hsn]
    simp only [withSum, if_true]
    exact this
  have hstep : ∀ b, step L m' b = step L m b := fun b => by simp [step, hpty, hst]
  have hrest : ∀ t a, walk L m' (withSum V m.next l e) t a rest = walk L m V t a rest :=
    fun t a => walk_congr L m m' V _ rest t a
      (fun i hi' => hnum i (hlt' i (by simp [hc, hi'])))
  have hinit : ∀ t a is, (∀ i ∈ is, i ∈ init) →
      walk L m' (withSum V m.next l e) t a is = walk L m V t a is :=
    fun t a is h => walk_congr L m m' V _ is t a
      (fun i hi' => hnum i (hlt i (by simp [hi, h i hi'])))
  -- where the second chain leads, from the address of the first
  have htop' : walk L m V (m.pty c.base) (V.addr c.base + num m V e * step L m c.base) rest =
      some (m.pty d, V.addr d) := by
    simpa [locate, hp, hc] using htop
  obtain ⟨p, ib0, b, idx⟩ := f
  simp only at hi hbase hone harr
  subst hi
  by_cases hcase : p = true ∧ init = []
  · obtain ⟨rfl, rfl⟩ := hcase
    have h1 : m.pty b = m.pty c.base ∧ V.addr b + num m V l * step L m b = V.addr c.base := by
      simpa [locate, walk] using hbase
    simp only [locate, List.nil_append, if_true, hpty, hnn, hstep, hrest]
    rw [← htop', h1.1, ← h1.2, hone rfl rfl, Int.add_mul, Int.add_assoc]
    rfl
  · have hcase' : p = false ∨ init ≠ [] := by
      cases p with
      | false => exact Or.inl rfl
      | true => exact Or.inr (fun h => hcase ⟨rfl, h⟩)
    obtain ⟨t, a, harr⟩ := harr hcase'
    have hne := locate_ne harr
    have hb2 := hbase
    rw [show (⟨p, ib0, b, init ++ [l]⟩ : Chain) =
      { (⟨p, ib0, b, init⟩ : Chain) with idx := (⟨p, ib0, b, init⟩ : Chain).idx ++ [l] } from rfl,
      locate_more _ _ hne] at hb2
    rw [show locate L m V ⟨p, ib0, b, init⟩ = _ from harr] at hb2
    have h1 : t = m.pty c.base ∧ a + num m V l * step L m c.base = V.addr c.base := by
      simpa [walk] using hb2
    have hne' : (⟨p, ib, b, init⟩ : Chain).ptr = true → (⟨p, ib, b, init⟩ : Chain).idx ≠ [] := hne
    rw [show (⟨p, ib, b, init ++ m.next :: rest⟩ : Chain) =
      { (⟨p, ib, b, init⟩ : Chain) with
        idx := (⟨p, ib, b, init⟩ : Chain).idx ++ m.next :: rest } from rfl,
      locate_more _ _ hne']
    have hsame : locate L m' (withSum V m.next l e) ⟨p, ib, b, init⟩ =
        some (.arr t (step L m c.base), a) := by
      rw [locate_congr L m m' V (withSum V m.next l e) ⟨p, ib, b, init⟩
        (fun i hi' => hnum i (hlt i (by
          have : i ∈ init := hi'
          simp [this]))) hpty hst rfl]
      exact harr
    rw [hsame]
    simp only [Option.bind_some, walk, hnn, hrest]
    rw [← htop', ← h1.2, h1.1, Int.add_mul, Int.add_assoc]

/-- Steps for an access chain that is not one. -/
theorem combine_right {L : Layout} {m : Mod} {V : Vals} (hR : Right L m V) (hF : Fresh m)
    (d : Id) (hS : Steps L m V d) :
    ∃ V', V'.addr = V.addr ∧ (∀ x, x < m.next → V'.bits x = V.bits x) ∧
      Right L (combine m d) V' := by
  have same : ∃ V', V'.addr = V.addr ∧ (∀ x, x < m.next → V'.bits x = V.bits x) ∧
      Right L m V' := ⟨V, rfl, fun _ _ => rfl, hR⟩
  unfold combine
  split
  · rename_i c hd
    split
    · rename_i f hf
      split
      · exact same
      · split
        · exact same
        · have hbase := hR.chain _ _ hf
          have htop := hR.chain _ _ hd
          split
          · rename_i hl
            have hnil : f.idx = [] := List.getLast?_eq_none_iff.1 hl
            have hfp : f.ptr = false := by
              cases h : f.ptr with
              | false => rfl
              | true => exact absurd hnil (locate_ne hbase h)
            have h1 : m.pty f.base = m.pty c.base ∧ V.addr f.base = V.addr c.base := by
              simpa [locate, hfp, hnil, walk] using hbase
            refine ⟨V, rfl, fun _ _ => rfl, right_chain hR d _ ?_⟩
            rw [← htop]
            cases hp : c.ptr with
            | false => simp [locate, hp, h1]
            | true =>
              have := (hS c f hd hp hf).1 hnil
              simp [locate, hp, h1, this]
          · rename_i l hl
            have hsp := getLast_split hl
            split
            · rename_i hci
              have hcp : c.ptr = false := by
                cases h : c.ptr with
                | false => rfl
                | true => exact absurd hci (locate_ne htop h)
              have h1 : m.pty c.base = m.pty d ∧ V.addr c.base = V.addr d := by
                simpa [locate, hcp, hci, walk] using htop
              exact ⟨V, rfl, fun _ _ => rfl, right_copy hR d _ h1.2.symm⟩
            · unfold append
              split
              · rename_i hcp
                split
                · exact same
                · rename_i e rest hce
                  split
                  · exact same
                  · rename_i m' n hm
                    have hl' : l < m.next := hF.chain _ _ hf l (by rw [hsp]; simp)
                    have he' : e < m.next := hF.chain _ _ hd e (by rw [hce]; simp)
                    obtain ⟨hn, hp', hs', hg, hg', hR'⟩ := combineIndices_right hR hF hl' he' hm
                    refine ⟨withSum V n l e, rfl, ?_, right_chain hR' d _ ?_⟩
                    · intro x hx
                      have : x ≠ n := by rw [hn]; exact Nat.ne_of_lt hx
                      simp [withSum, this]
                    · rw [hn] at hg ⊢
                      rw [hp']
                      exact locate_sum hR hF hd hf hcp hsp hce hS _ hp' hs' hg hg'
              · rename_i hcp
                have hcp : c.ptr = false := by simpa using hcp
                refine ⟨V, rfl, fun _ _ => rfl, right_chain hR d _ ?_⟩
                have := locate_more (L := L) (m := m) (V := V) f c.idx (locate_ne hbase)
                have e1 : f.idx.dropLast ++ l :: c.idx = f.idx ++ c.idx := by
                  conv => rhs; rw [hsp]
                  simp
                rw [e1]
                show locate L m V ⟨f.ptr, _, f.base, _⟩ = _
                rw [locate_inb L m V _ _ f.inb]
                rw [show (⟨f.ptr, f.inb, f.base, f.idx ++ c.idx⟩ : Chain) =
                  { f with idx := f.idx ++ c.idx } from rfl, this, hbase]
                rw [← htop]
                simp [locate, hcp]
    · exact same
  · exact same

end Verif.CombineAccess
