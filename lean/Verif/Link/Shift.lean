import Verif.Link.Spec
import Verif.Ir.Lemmas
/-!
C36: shifting the ids of the modules to be linked.
-/
set_option linter.unusedSimpArgs false
set_option linter.unusedVariables false
namespace Verif.Link
open Verif.StringLit (Word Byte)
open Verif.Binary (OT)
open Verif.Ir
open Spec

/-! ### Sums -/

theorem sum_pred (mods : List Module) (acc : Nat) (h : ∀ m ∈ mods, 1 ≤ m.bound.toNat) :
    (mods.foldl (fun acc m => acc + m.bound.setWidth 64 - 1#64) (BitVec.ofNat 64 acc)) =
      BitVec.ofNat 64 (acc + (mods.map (fun m => m.bound.toNat - 1)).sum) := by
  induction mods generalizing acc with
  | nil => simp
  | cons m mods ih =>
    simp only [List.foldl_cons, List.map_cons, List.sum_cons]
    have h1 := h m (by simp)
    have : (BitVec.ofNat 64 acc + m.bound.setWidth 64 - 1#64) = BitVec.ofNat 64 (acc + (m.bound.toNat - 1)) := by
      apply BitVec.eq_of_toNat_eq
      have hb := m.bound.isLt
      simp only [BitVec.toNat_sub, BitVec.toNat_add, BitVec.toNat_ofNat, BitVec.toNat_setWidth]
      omega
    rw [this, ih _ (fun x hx => h x (by simp [hx]))]
    congr 1
    omega

/-- The sum does not wrap in 64 bits unless there are 2^32 modules. -/
theorem boundSum_toNat (mods : List Module) (h : ∀ m ∈ mods, 1 ≤ m.bound.toNat) (hlen : mods.length < 2 ^ 31) :
    (boundSum mods).toNat = 1 + offset mods mods.length := by
  unfold boundSum
  rw [show (1#64) = BitVec.ofNat 64 1 from rfl, sum_pred _ _ h, BitVec.toNat_ofNat]
  unfold offset
  rw [List.take_length]
  have : ∀ l : List Module, (l.map (fun m => m.bound.toNat - 1)).sum ≤ l.length * 2 ^ 32 := by
    intro l
    induction l with
    | nil => simp
    | cons m l ih =>
      have := m.bound.isLt
      simp only [List.map_cons, List.sum_cons, List.length_cons]
      omega
  have := this mods
  omega

theorem offset_succ (mods : List Module) (k : Nat) (h : k < mods.length) :
    offset mods (k + 1) = offset mods k + (mods[k].bound.toNat - 1) := by
  unfold offset
  rw [List.take_succ_eq_append_getElem h]
  simp only [List.map_append, List.map_cons, List.map_nil, List.sum_append, List.sum_cons, List.sum_nil]
  omega

theorem offset_mono (mods : List Module) {j k : Nat} (h : j ≤ k) : offset mods j ≤ offset mods k := by
  induction k with
  | zero => rw [Nat.le_zero.mp h]; exact Nat.le_refl _
  | succ k ih =>
    by_cases hjk : j = k + 1
    · subst hjk; exact Nat.le_refl _
    have ih := ih (by omega)
    by_cases hk : k < mods.length
    · have := offset_succ mods k hk; omega
    · have : offset mods (k + 1) = offset mods k := by
        unfold offset
        rw [List.take_of_length_le (i := k + 1) (by omega), List.take_of_length_le (i := k) (by omega)]
      rw [this]
      exact ih

/-! ### Shifting -/

theorem shiftOperand_zero (o : Operand) : shiftOperand 0 o = o := by
  unfold shiftOperand
  split
  · obtain ⟨t, ws⟩ := o
    cases ws <;> simp
  · rfl

theorem shiftModule_zero (m : Module) : shiftModule 0 m = m := by
  have : shiftInst 0 = id := by
    funext i
    have h : i.core.operands.map (shiftOperand 0) = i.core.operands := by
      rw [List.map_congr_left (g := id) (fun o _ => shiftOperand_zero o), List.map_id]
    unfold shiftInst
    rw [h]
    rfl
  unfold shiftModule
  rw [this, Module.map_id]

theorem shiftLoop_getElem (off : Word) (mods : List Module) (k : Nat) :
    (shiftLoop off mods)[k]? = mods[k]?.map (shiftModule
      (off + BitVec.ofInt 32 (((mods.take k).map (fun m => (m.bound.toNat : Int) - 1)).sum))) := by
  induction mods generalizing off k with
  | nil => simp [shiftLoop]
  | cons m mods ih =>
    unfold shiftLoop
    cases k with
    | zero => simp
    | succ k =>
      simp only [List.getElem?_cons_succ, List.take_succ_cons, List.map_cons, List.sum_cons]
      rw [ih]
      congr 2
      rw [BitVec.ofInt_add, ← BitVec.add_assoc]
      congr 1
      have hx : BitVec.ofInt 32 ((m.bound.toNat : Int) - 1) = m.bound - 1#32 := by
        apply BitVec.eq_of_toInt_eq
        rw [BitVec.toInt_ofInt, BitVec.toInt_sub, BitVec.toInt_eq_toNat_bmod]
        simp
      rw [hx, BitVec.sub_eq_add_neg, BitVec.sub_eq_add_neg, BitVec.add_assoc]

theorem intSum (l : List Module) (h : ∀ m ∈ l, 1 ≤ m.bound.toNat) :
    (l.map (fun m => (m.bound.toNat : Int) - 1)).sum = ((l.map (fun m => m.bound.toNat - 1)).sum : Nat) := by
  induction l with
  | nil => rfl
  | cons m l ih =>
    have h1 := h m (by simp)
    simp only [List.map_cons, List.sum_cons]
    rw [ih (fun x hx => h x (by simp [hx]))]
    omega

/-- The modules after the shift. -/
theorem shiftIds_getElem {mods mods' : List Module} {b : Word} (h : shiftIds mods = .ok (mods', b))
    (hb : ∀ m ∈ mods, 1 ≤ m.bound.toNat) (k : Nat) :
    mods'[k]? = mods[k]?.map (shiftModule (BitVec.ofNat 32 (offset mods k))) := by
  unfold shiftIds at h
  split at h
  · cases h
  · rename_i m ms
    dsimp only at h
    split at h
    · cases h
    · simp only [Res.ok.injEq, Prod.mk.injEq] at h
      obtain ⟨rfl, rfl⟩ := h
      cases k with
      | zero =>
        have : shiftModule (BitVec.ofNat 32 (offset (m :: ms) 0)) m = m := shiftModule_zero m
        simp [this]
      | succ k =>
        simp only [List.getElem?_cons_succ]
        rw [shiftLoop_getElem]
        congr 2
        rw [intSum _ (fun x hx => hb x (by simp [List.mem_of_mem_take hx])), BitVec.ofInt_natCast]
        have h1 := hb m (by simp)
        have hlt := m.bound.isLt
        apply BitVec.eq_of_toNat_eq
        unfold offset
        simp only [List.take_succ_cons, List.map_cons, List.sum_cons, BitVec.toNat_add, BitVec.toNat_sub,
          BitVec.toNat_ofNat]
        omega

theorem filter_shift (off : Word) (os : List Operand) (p : OT → Bool) (hp : ∀ t, p t = true → t.isId = true)
    (h : ∀ o ∈ os, o.type.isId → o.words ≠ []) :
    ((os.map (shiftOperand off)).filter (fun o => p o.type)).flatMap (fun o => o.words.take 1) =
      ((os.filter (fun o => p o.type)).flatMap (fun o => o.words.take 1)).map (· + off) := by
  induction os with
  | nil => rfl
  | cons o os ih =>
    have ih := ih (fun x hx => h x (by simp [hx]))
    have ho := h o (by simp)
    obtain ⟨t, ws⟩ := o
    simp only at ho
    have ht : (shiftOperand off ⟨t, ws⟩).type = t := by
      unfold shiftOperand
      simp only
      split
      · cases ws <;> rfl
      · rfl
    simp only [List.map_cons, List.filter_cons, ht]
    cases hpt : p t with
    | false => simp [ih]
    | true =>
      have hid := hp t hpt
      cases ws with
      | nil => exact absurd rfl (ho hid)
      | cons w ws =>
        have : shiftOperand off ⟨t, w :: ws⟩ = ⟨t, (w + off) :: ws⟩ := by
          unfold shiftOperand; simp [hid]
        rw [this]
        simp [ih]

theorem flatMap_congr' {α β : Type} {l : List α} {f g : α → List β} (h : ∀ a ∈ l, f a = g a) :
    l.flatMap f = l.flatMap g := by
  induction l with
  | nil => rfl
  | cons a l ih =>
    simp only [List.flatMap_cons]
    rw [h a (by simp), ih (fun x hx => h x (by simp [hx]))]

theorem ids_shift (off : Word) (m : Module) (h : Ok m) : ids (shiftModule off m) = (ids m).map (· + off) := by
  unfold ids shiftModule
  rw [Module.visit_map, List.flatMap_map, List.map_flatMap]
  refine flatMap_congr' ?_
  intro i hi
  exact filter_shift off i.core.operands OT.isId (fun _ => id) (h i hi)

theorem results_shift (off : Word) (m : Module) (h : Ok m) :
    results (shiftModule off m) = (results m).map (· + off) := by
  unfold results shiftModule
  rw [Module.visit_map, List.flatMap_map, List.map_flatMap]
  refine flatMap_congr' ?_
  intro i hi
  refine filter_shift off i.core.operands (· == .RESULT_ID) ?_ (h i hi)
  intro t ht
  rw [beq_iff_eq] at ht
  subst ht
  rfl

theorem map_map (m : Module) (f g : Inst → Inst) : (m.map f).map g = m.map (fun i => g (f i)) := by
  unfold Module.map
  simp [Option.map_map, Function.comp_def, Function.map, Graph.map, Block.map]

theorem blank_shift (off : Word) (m : Module) (h : Ok m) : blank (shiftModule off m) = blank m := by
  unfold blank shiftModule
  rw [map_map]
  apply Module.map_congr
  intro i hi
  have : ∀ o ∈ i.core.operands, blankOperand (shiftOperand off o) = blankOperand o := by
    intro o ho
    have h := h i hi o ho
    obtain ⟨t, ws⟩ := o
    unfold shiftOperand blankOperand
    cases hid : t.isId with
    | false => simp [hid]
    | true =>
      cases ws with
      | nil => exact absurd rfl (h hid)
      | cons w ws => simp [hid]
  simp only [shiftInst, List.map_map, Function.comp_def]
  rw [List.map_congr_left (fun o ho => this o ho)]

/-- C36.  When the ids are shifted, the `k`-th module keeps everything but its ids, each of
    which goes up by the number `offset mods k` of ids of the modules before it, without
    wrapping; the new bound is one more than the number of all ids; so the ids of
    different modules are different and all are below the bound. -/
theorem shiftIds_spec {mods mods' : List Module} {b : Word} (h : shiftIds mods = .ok (mods', b))
    (hlen : mods.length < 2 ^ 31) (hok : ∀ m ∈ mods, Ok m) (hin : ∀ m ∈ mods, InBound m) :
    mods'.length = mods.length ∧ b.toNat = 1 + offset mods mods.length ∧
    (∀ k (hk : k < mods.length), ∃ m', mods'[k]? = some m' ∧ blank m' = blank mods[k] ∧
      (ids m').map BitVec.toNat = (ids mods[k]).map (fun x => x.toNat + offset mods k)) ∧
    (∀ (j k : Nat) m m', mods'[j]? = some m → mods'[k]? = some m' → ∀ x ∈ ids m, x ∈ ids m' → j = k) ∧
    (∀ m ∈ mods', ∀ x ∈ ids m, 1 ≤ x.toNat ∧ x.toNat < b.toNat) := by
  have hb : ∀ m ∈ mods, 1 ≤ m.bound.toNat := fun m hm => (hin m hm).1
  have hget := shiftIds_getElem h hb
  have hl : mods'.length = mods.length := by
    unfold shiftIds at h
    split at h
    · cases h
    · rename_i m ms
      dsimp only at h
      split at h
      · cases h
      · cases h
        have : ∀ off (l : List Module), (shiftLoop off l).length = l.length := by
          intro off l
          induction l generalizing off with
          | nil => rfl
          | cons m l ih => simp [shiftLoop, ih]
        simp [this]
  have hbound : b.toNat = 1 + offset mods mods.length := by
    have hs := boundSum_toNat mods hb hlen
    unfold shiftIds at h
    split at h
    · cases h
    · rename_i m ms
      dsimp only at h
      split at h
      · cases h
      · rename_i hn
        cases h
        rw [BitVec.toNat_setWidth, hs]
        rw [hs] at hn
        omega
  have hlt := b.isLt
  have hkth : ∀ k (hk : k < mods.length), ∃ m', mods'[k]? = some m' ∧ blank m' = blank mods[k] ∧
      (ids m').map BitVec.toNat = (ids mods[k]).map (fun x => x.toNat + offset mods k) := by
    intro k hk
    refine ⟨_, by rw [hget k, List.getElem?_eq_getElem hk]; rfl, blank_shift _ _ (hok _ (by simp)), ?_⟩
    rw [ids_shift _ _ (hok _ (by simp)), List.map_map]
    apply List.map_congr_left
    intro x hx
    have h1 := (hin mods[k] (by simp)).2 x hx
    have h2 := offset_succ mods k hk
    have h3 := offset_mono mods (show k + 1 ≤ mods.length by omega)
    simp only [Function.comp, BitVec.toNat_add, BitVec.toNat_ofNat]
    omega
  have hrange : ∀ (k : Nat) m, mods'[k]? = some m → ∀ x ∈ ids m,
      offset mods k < x.toNat ∧ x.toNat ≤ offset mods (k + 1) ∧ k < mods.length := by
    intro k m hm x hx
    have hk : k < mods.length := by
      have := (List.getElem?_eq_some_iff.mp hm).1
      omega
    obtain ⟨m', a1, a2, a3⟩ := hkth k hk
    rw [hm] at a1
    cases a1
    have hx' : x.toNat ∈ (ids m).map BitVec.toNat := List.mem_map_of_mem hx
    rw [a3] at hx'
    obtain ⟨y, hy, hxy⟩ := List.mem_map.mp hx'
    have h1 := (hin mods[k] (by simp)).2 y hy
    have h2 := offset_succ mods k hk
    omega
  refine ⟨hl, hbound, hkth, ?_, ?_⟩
  · intro j k m m' hj hk x hx hx'
    obtain ⟨a1, a2, a3⟩ := hrange j m hj x hx
    obtain ⟨b1, b2, b3⟩ := hrange k m' hk x hx'
    rcases Nat.lt_trichotomy j k with h | h | h
    · have := offset_mono mods (show j + 1 ≤ k by omega); omega
    · exact h
    · have := offset_mono mods (show k + 1 ≤ j by omega); omega
  · intro m hm x hx
    obtain ⟨k, hk, rfl⟩ := List.getElem_of_mem hm
    obtain ⟨a1, a2, a3⟩ := hrange k _ (List.getElem?_eq_getElem hk) x hx
    have := offset_mono mods (show k + 1 ≤ mods.length by omega)
    omega

/-- C36, when it fails: exactly if there is no module, or the ids of all modules together
    do not fit in 32 bits. -/
theorem shiftIds_fails (mods : List Module) (hlen : mods.length < 2 ^ 31)
    (hb : ∀ m ∈ mods, 1 ≤ m.bound.toNat) :
    (∃ r, shiftIds mods = .ok r) ↔ mods ≠ [] ∧ 1 + offset mods mods.length < 2 ^ 32 := by
  have hs := boundSum_toNat mods hb hlen
  unfold shiftIds
  cases mods with
  | nil => simp
  | cons m ms =>
    simp only [ne_eq, reduceCtorEq, not_false_eq_true, true_and, hs]
    by_cases h : 1 + offset (m :: ms) (m :: ms).length < 2 ^ 32
    · rw [if_neg (by omega)]
      exact ⟨fun _ => h, fun _ => ⟨_, rfl⟩⟩
    · rw [if_pos (by omega)]
      exact ⟨fun hr => (by obtain ⟨r, hr⟩ := hr; cases hr), fun h' => absurd h' h⟩

end Verif.Link
