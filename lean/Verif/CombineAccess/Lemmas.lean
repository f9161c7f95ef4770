import Verif.CombineAccess.Spec
set_option linter.unusedSimpArgs false
set_option linter.unusedVariables false

namespace Verif.CombineAccess

open Spec

theorem walk_append (L : Layout) (m : Mod) (V : Vals) (js : List Id) :
    ∀ (is : List Id) (t : Ty) (a : Int), walk L m V t a (is ++ js) =
      (walk L m V t a is).bind fun p => walk L m V p.1 p.2 js := by
  intro is
  induction is with
  | nil => intro t a; simp [walk]
  | cons i is ih =>
    intro t a
    cases t with
    | leaf _ => simp [walk]
    | arr e s => simp [walk, ih]
    | struct ms =>
      simp only [List.cons_append, walk]
      split
      · rfl
      · split
        · rfl
        · exact ih _ _

/-- Following indices looks at their values only. -/
theorem walk_congr (L : Layout) (m m' : Mod) (V V' : Vals) :
    ∀ (is : List Id) (t : Ty) (a : Int), (∀ i ∈ is, num m' V' i = num m V i) →
      walk L m' V' t a is = walk L m V t a is := by
  intro is
  induction is with
  | nil => intro t a _; simp [walk]
  | cons i is ih =>
    intro t a h
    have hi := h i (by simp)
    have ht := fun t a => ih t a (fun j hj => h j (by simp [hj]))
    cases t with
    | leaf _ => simp [walk]
    | arr e s => simp [walk, hi, ht]
    | struct ms => simp [walk, hi, ht]

theorem locate_congr (L : Layout) (m m' : Mod) (V V' : Vals) (c : Chain)
    (h : ∀ i ∈ c.idx, num m' V' i = num m V i) (hp : m'.pty = m.pty)
    (hs : m'.stride = m.stride) (ha : V'.addr = V.addr) :
    locate L m' V' c = locate L m V c := by
  have hst : ∀ b, step L m' b = step L m b := fun b => by simp [step, hp, hs]
  unfold locate
  split
  · split
    · rfl
    · rename_i e rest hc
      rw [hc] at h
      rw [walk_congr L m m' V V' rest _ _ (fun i hi => h i (by simp [hi])),
        h e (by simp), hst, hp, ha]
  · rw [walk_congr L m m' V V' c.idx _ _ h, hp, ha]

/-- The sum of the bits is the sum of the numbers, where that can be held. -/
theorem num_add (s t : Bool) (a b : BitVec 32) (v : Int)
    (hv : v = (if s then a.toInt else (a.toNat : Int)) + (if t then b.toInt else (b.toNat : Int)))
    (hf : if s then -2147483648 ≤ v ∧ v < 2147483648 else 0 ≤ v ∧ v < 4294967296) :
    (if s then (a + b).toInt else ((a + b).toNat : Int)) = v := by
  have h1 : a.toNat < 4294967296 := a.isLt
  have h2 : b.toNat < 4294967296 := b.isLt
  have h3 : (a + b).toNat = (a.toNat + b.toNat) % 4294967296 := BitVec.toNat_add a b
  have e1 := BitVec.toInt_eq_toNat_cond a
  have e2 := BitVec.toInt_eq_toNat_cond b
  have e3 := BitVec.toInt_eq_toNat_cond (a + b)
  simp only [Nat.reducePow] at e1 e2 e3
  generalize a.toInt = ai at *
  generalize b.toInt = bi at *
  generalize (a + b).toInt = ci at *
  generalize (a + b).toNat = cn at *
  generalize a.toNat = an at *
  generalize b.toNat = bn at *
  have k1 : ai = an ∨ ai = (an : Int) - 4294967296 := by split at e1 <;> omega
  have k2 : bi = bn ∨ bi = (bn : Int) - 4294967296 := by split at e2 <;> omega
  have k3 : -2147483648 ≤ ci ∧ ci < 2147483648 := by split at e3 <;> omega
  have k4 : ci = cn ∨ ci = (cn : Int) - 4294967296 := by split at e3 <;> omega
  clear e1 e2 e3
  cases s <;> cases t <;> simp only [Bool.false_eq_true, if_false, if_true] at hv hf ⊢ <;> omega

end Verif.CombineAccess
