import Verif.Fold.Lemmas

set_option linter.unusedSimpArgs false
set_option linter.unusedVariables false

namespace Verif.Fold

open Spec

/-- The constant denotes a value of type `t` that the specification allows. -/
def Good (op : Op) (t : STy) (us : List SVal) (c : SConst) : Prop :=
  ∃ u, SDenotes c u ∧ HasSTy u t ∧ ∀ r, Spec.scalar op t us = some r → u = r

theorem good_int {op : Op} {w : Nat} {s : Bool} {us : List SVal} {c : SConst} {z : BitVec w}
    (hd : SDenotes c (.int w z))
    (h : ∀ r, Spec.scalar op (.int w s) us = some r → r = .int w z) :
    Good op (.int w s) us c := ⟨_, hd, rfl, fun r hr => (h r hr).symm⟩

/-! ## Rules -/

theorem ty_width {c : SConst} {w : Nat} {x : BitVec w} (h : SDenotes c (.int w x)) :
    c.width? = some w := by
  match c with
  | .bool b => simp [SDenotes] at h
  | .null .bool => simp [SDenotes] at h
  | .null (.int w' s) => obtain ⟨rfl, _⟩ := h; rfl
  | .int w' s ws => obtain ⟨rfl, _⟩ := h; rfl

def Op.arith (op : Op) : Prop :=
  op = .iAdd ∨ op = .iSub ∨ op = .iMul ∨ op = .uDiv ∨ op = .uMod ∨ op = .sDiv ∨ op = .sRem ∨
  op = .sMod

theorem binaryInt_good {op : Op} (hop : op.arith) {w : Nat} (hw : Width w) (s : Bool)
    {a b : SConst} {x y : BitVec w} (ha : SDenotes a (.int w x)) (hb : SDenotes b (.int w y))
    (hu : op = .uDiv ∨ op = .uMod → a.ty = .int w false ∧ b.ty = .int w false)
    (hs : op = .sDiv ∨ op = .sRem ∨ op = .sMod →
      (∀ v, a.ty = .int v false → 32 ≤ v) ∧ (∀ v, b.ty = .int v false → 32 ≤ v))
    (hmod : op = .sMod → y.toInt < 0 → x.toInt.tmod y.toInt ≠ 0) :
    (¬ ((op = .sDiv ∨ op = .sRem ∨ op = .sMod) ∧ w = 64 ∧ x.toInt = -2 ^ 63 ∧ y.toInt = -1) →
      (binaryInt op (.int w s) a b).isSome) ∧
    ∀ o, binaryInt op (.int w s) a b = some o →
      ∃ c, o = some c ∧ c.ty = .int w s ∧ Good op (.int w s) [.int w x, .int w y] c := by
  obtain ⟨hpos, hcase⟩ := width_cases hw
  have hw64 : w ≤ 64 := by omega
  have key : ∀ (za zb : BitVec 64),
      readInt op.signedRule a = some za →
      readInt op.signedRule b = some zb →
      ((¬ ((op = .sDiv ∨ op = .sRem ∨ op = .sMod) ∧ w = 64 ∧ x.toInt = -2 ^ 63 ∧ y.toInt = -1) →
        (intOp op za zb).isSome) ∧
        ∀ z, intOp op za zb = some z →
          ∀ n, intResult op x y = some n → z.setWidth w = BitVec.ofInt w n) →
      (¬ ((op = .sDiv ∨ op = .sRem ∨ op = .sMod) ∧ w = 64 ∧ x.toInt = -2 ^ 63 ∧ y.toInt = -1) →
        (binaryInt op (.int w s) a b).isSome) ∧
      ∀ o, binaryInt op (.int w s) a b = some o →
        ∃ c, o = some c ∧ c.ty = .int w s ∧ Good op (.int w s) [.int w x, .int w y] c := by
    intro za zb h1 h2 ⟨h3, h4⟩
    have hb' : binaryInt op (.int w s) a b =
        (intOp op za zb).bind fun r => (generateInt w s r).bind fun c => some (some c) := by
      unfold binaryInt
      simp only [ty_width ha, ty_width hb, and_self, if_true, h1, h2]
      rfl
    rw [hb']
    constructor
    · intro h
      obtain ⟨z, hz⟩ := Option.isSome_iff_exists.mp (h3 h)
      obtain ⟨c, hc, _, _⟩ := generateInt_spec hw s z
      simp [hz, hc]
    · intro o ho
      cases hz : intOp op za zb with
      | none => rw [hz] at ho; cases ho
      | some z =>
          obtain ⟨c, hc, hty, hden⟩ := generateInt_spec hw s z
          rw [hz] at ho
          simp only [Option.bind_some, hc, Option.some.injEq] at ho
          refine ⟨c, ho.symm, hty, good_int hden ?_⟩
          intro r hr
          simp only [Spec.scalar, Option.map_eq_some_iff] at hr
          obtain ⟨n, hn, rfl⟩ := hr
          rw [h4 z hz n hn]
  obtain ⟨za, hza, hxa, hna⟩ := zeroExtended_spec hw ha
  obtain ⟨zb, hzb, hxb, hnb⟩ := zeroExtended_spec hw hb
  obtain ⟨sa, hsa, hya, hia⟩ := signExtended_spec hw ha
  obtain ⟨sb, hsb, hyb, hib⟩ := signExtended_spec hw hb
  have signed : op = .sDiv ∨ op = .sRem ∨ op = .sMod →
      sa.toInt = x.toInt ∧ sb.toInt = y.toInt := by
    intro h
    obtain ⟨h1, h2⟩ := hs h
    refine ⟨hia ?_, hib ?_⟩
    · intro s' hs'
      cases s'
      · exact Or.inr (h1 _ hs')
      · exact Or.inl rfl
    · intro s' hs'
      cases s'
      · exact Or.inr (h2 _ hs')
      · exact Or.inl rfl
  have unsigned : op = .uDiv ∨ op = .uMod → za.toNat = x.toNat ∧ zb.toNat = y.toNat := by
    intro h
    obtain ⟨h1, h2⟩ := hu h
    refine ⟨hna ?_, hnb ?_⟩
    · intro s' hs'; rw [h1] at hs'; cases hs'; exact Or.inl rfl
    · intro s' hs'; rw [h2] at hs'; cases hs'; exact Or.inl rfl
  have modular : op = .iAdd ∨ op = .iSub ∨ op = .iMul →
      ((¬ ((op = .sDiv ∨ op = .sRem ∨ op = .sMod) ∧ w = 64 ∧ x.toInt = -2 ^ 63 ∧ y.toInt = -1) →
        (intOp op za zb).isSome) ∧
        ∀ z, intOp op za zb = some z →
          ∀ n, intResult op x y = some n → z.setWidth w = BitVec.ofInt w n) := by
    intro h
    obtain ⟨z, n, h1, h2, h3⟩ := intOp_modular hw64 op h za zb
    rw [hxa, hxb] at h2
    refine ⟨fun _ => by rw [h1]; rfl, ?_⟩
    intro z' hz' n' hn'
    rw [h1] at hz'; rw [h2] at hn'
    cases hz'; cases hn'; exact h3
  have uns : op = .uDiv ∨ op = .uMod →
      ((¬ ((op = .sDiv ∨ op = .sRem ∨ op = .sMod) ∧ w = 64 ∧ x.toInt = -2 ^ 63 ∧ y.toInt = -1) →
        (intOp op za zb).isSome) ∧
        ∀ z, intOp op za zb = some z →
          ∀ n, intResult op x y = some n → z.setWidth w = BitVec.ofInt w n) := by
    intro h
    obtain ⟨h1, h2⟩ := unsigned h
    obtain ⟨z, hz, hn⟩ := intOp_unsigned hw64 op h za zb x y h1 h2
    refine ⟨fun _ => by rw [hz]; rfl, ?_⟩
    intro z' hz'
    rw [hz] at hz'; cases hz'; exact hn
  have sgn : op = .sDiv ∨ op = .sRem ∨ op = .sMod →
      ((¬ ((op = .sDiv ∨ op = .sRem ∨ op = .sMod) ∧ w = 64 ∧ x.toInt = -2 ^ 63 ∧ y.toInt = -1) →
        (intOp op sa sb).isSome) ∧
        ∀ z, intOp op sa sb = some z →
          ∀ n, intResult op x y = some n → z.setWidth w = BitVec.ofInt w n) := by
    intro h
    obtain ⟨h1, h2⟩ := signed h
    obtain ⟨h3, h4⟩ := intOp_signed hw64 op h sa sb x y h1 h2 hmod
    refine ⟨?_, h4⟩
    intro hn
    apply h3
    rintro ⟨h5, h6⟩
    apply hn
    refine ⟨h, ?_, h5, h6⟩
    rcases hcase with hle | h64
    · exfalso
      have h7 := BitVec.le_toInt x
      have h8 : (2 : Nat) ^ (w - 1) ≤ 2 ^ 31 := Nat.pow_le_pow_right (by omega) (by omega)
      have h9 : ((2 : Int) ^ (w - 1)) ≤ 2 ^ 31 := by exact_mod_cast h8
      omega
    · exact h64
  rcases hop with rfl | rfl | rfl | rfl | rfl | rfl | rfl | rfl
  · exact key za zb hza hzb (modular (by simp))
  · exact key za zb hza hzb (modular (by simp))
  · exact key za zb hza hzb (modular (by simp))
  · exact key za zb hza hzb (uns (by simp))
  · exact key za zb hza hzb (uns (by simp))
  · exact key sa sb hsa hsb (sgn (by simp))
  · exact key sa sb hsa hsb (sgn (by simp))
  · exact key sa sb hsa hsb (sgn (by simp))

theorem shift_signExtend (val : BitVec 64) (w : Nat) (h0 : 0 < w) (hw : w ≤ 64) :
    BitVec.sshiftRight (val <<< (64 - w)) (64 - w) = (val.setWidth w).signExtend 64 := by
  apply BitVec.eq_of_getLsbD_eq
  intro i hi
  rw [BitVec.getLsbD_sshiftRight, BitVec.getLsbD_signExtend]
  simp only [BitVec.getLsbD_shiftLeft, BitVec.getLsbD_setWidth, BitVec.msb_eq_getLsbD_last,
    BitVec.msb_shiftLeft]
  have h1 : ¬ 64 ≤ i := by omega
  simp only [hi, h1, decide_true, decide_false, Bool.true_and, Bool.not_false]
  by_cases h : i < w
  · have h2 : 64 - w + i < 64 := by omega
    have h3 : ¬ (64 - w + i < 64 - w) := by omega
    have h4 : 64 - w + i - (64 - w) = i := by omega
    simp only [h, h2, h3, h4, if_true, decide_true, decide_false, Bool.not_false, Bool.true_and]
  · have h2 : ¬ (64 - w + i < 64) := by omega
    have h3 : w - 1 < w := by omega
    simp only [h, h2, h3, if_false, decide_true, Bool.true_and]
    have h4 : 64 - 1 < 64 := by omega
    have h5 : ¬ (64 - 1 < 64 - w) := by omega
    have h6 : 64 - 1 - (64 - w) = w - 1 := by omega
    simp only [h5, h6, decide_true, decide_false, Bool.not_false, Bool.true_and]
    try simp

theorem mask_zeroExtend (val : BitVec 64) (w : Nat) (hw : w < 64) :
    val &&& ((1#64 <<< w) - 1#64) = (val.setWidth w).setWidth 64 := by
  apply BitVec.eq_of_toNat_eq
  have h1 : (1#64 <<< w).toNat = 2 ^ w := by
    rw [BitVec.toNat_shiftLeft]
    simp [Nat.shiftLeft_eq]
    have : 2 ^ w < 2 ^ 64 := Nat.pow_lt_pow_right (by omega) hw
    omega
  have hp : 0 < 2 ^ w := Nat.two_pow_pos w
  have hl : 2 ^ w < 2 ^ 64 := Nat.pow_lt_pow_right (by omega) hw
  have h2 : ((1#64 <<< w) - 1#64).toNat = 2 ^ w - 1 := by
    rw [BitVec.toNat_sub, h1]
    simp only [BitVec.toNat_ofNat]
    omega
  rw [BitVec.toNat_and, h2, Nat.and_two_pow_sub_one_eq_mod, BitVec.toNat_setWidth,
    BitVec.toNat_setWidth]
  have := Nat.mod_lt val.toNat hp
  exact (Nat.mod_eq_of_lt (by omega)).symm

theorem getIntConst_spec {w : Nat} (hw : Width w) (s : Bool) (r : BitVec 64) :
    ∃ c, getIntConst r w s = some c ∧ c.ty = .int w s ∧ SDenotes c (.int w (r.setWidth w)) := by
  obtain ⟨hpos, hcase⟩ := width_cases hw
  have hn : ¬ (w = 0 ∨ 64 < w) := by omega
  have hv : (if s then BitVec.sshiftRight (r <<< (64 - w)) (64 - w)
             else if w < 64 then r &&& ((1#64 <<< w) - 1#64) else r) =
      if s then (r.setWidth w).signExtend 64 else (r.setWidth w).setWidth 64 := by
    cases s
    · simp only [Bool.false_eq_true, if_false]
      split
      · exact mask_zeroExtend r w ‹_›
      · have : w = 64 := by omega
        subst this; simp
    · simp only [if_true]
      exact shift_signExtend r w hpos (by omega)
  unfold getIntConst
  rw [if_neg hn]
  simp only [hv]
  rcases hcase with hle | rfl
  · rw [if_pos hle]
    refine ⟨_, rfl, rfl, rfl, ?_⟩
    simp only [literalWords, if_pos hle, List.cons.injEq, and_true]
    cases s
    · simp only [Bool.false_eq_true, if_false]
      apply BitVec.eq_of_getLsbD_eq
      intro i hi
      simp only [BitVec.getLsbD_setWidth]
      have : i < 64 := by omega
      simp [*]
    · simp only [if_true]
      apply BitVec.eq_of_getLsbD_eq
      intro i hi
      simp only [BitVec.getLsbD_setWidth, BitVec.getLsbD_signExtend]
      have : i < 64 := by omega
      simp [*]
  · rw [if_neg (by omega)]
    refine ⟨_, rfl, rfl, rfl, ?_⟩
    simp only [literalWords]
    cases s <;> simp

theorem setWidth_neg64 {w : Nat} (hw : w ≤ 64) (z : BitVec 64) :
    (-z).setWidth w = BitVec.ofInt w (-(z.setWidth w).toInt) := by
  rw [setWidth_eq_ofInt hw, BitVec.toInt_neg, ofInt_bmod _ _ hw, BitVec.ofInt_neg, BitVec.ofInt_neg,
    BitVec.ofInt_toInt, ← setWidth_eq_ofInt hw]

theorem negateInt_good {w : Nat} (hw : Width w) (s : Bool) {a : SConst} {x : BitVec w}
    (ha : SDenotes a (.int w x)) :
    (¬ (w = 64 ∧ x.toInt = -2 ^ 63) → (negateInt (.int w s) a).isSome) ∧
    ∀ o, negateInt (.int w s) a = some o →
      ∃ c, o = some c ∧ (c.ty = .int w s ∨ (c = a ∧ ∃ t, c = .null t)) ∧
        Good .sNegate (.int w s) [.int w x] c := by
  obtain ⟨hpos, hcase⟩ := width_cases hw
  have hw64 : w ≤ 64 := by omega
  match a with
  | .bool b => simp [SDenotes] at ha
  | .null .bool => simp [SDenotes] at ha
  | .null (.int w' s') =>
      obtain ⟨rfl, rfl⟩ := ha
      refine ⟨fun _ => rfl, ?_⟩
      rintro o ⟨⟩
      refine ⟨_, rfl, Or.inr ⟨rfl, _, rfl⟩, ?_⟩
      refine good_int (z := 0#w') ⟨rfl, rfl⟩ ?_
      intro r hr
      simp [Spec.scalar, intUnary] at hr
      exact hr.symm
  | .int w' s' ws =>
      have hty : w' = w := ha.1
      obtain ⟨z, hz, hzw, hzi⟩ := signExtended_spec hw ha
      obtain ⟨c, hc, hct, hcd⟩ := getIntConst_spec hw s (-z)
      have hunf : negateInt (.int w s) (.int w' s' ws) =
          if z = int64Min then none else some (some c) := by
        unfold negateInt
        simp only [hz, Option.bind_eq_bind, Option.bind_some, hc]
        split <;> rfl
      rw [hunf]
      have hmin : z = int64Min → w = 64 ∧ x.toInt = -2 ^ 63 := by
        intro h
        have h1 := (toInt_eq_min64 z).mp h
        rcases hcase with hle | h64
        · exfalso
          obtain ⟨_, hws⟩ := ha
          subst hty
          rw [hws] at hz
          simp only [signExtended, literalWords, if_pos hle, Option.some.injEq] at hz
          rw [← hz, toInt_signExtend_ge _ (by omega)] at h1
          have h2 := BitVec.le_toInt (if s' = true then BitVec.signExtend 32 x else BitVec.setWidth 32 x)
          rw [h1] at h2
          revert h2; decide
        · refine ⟨h64, ?_⟩
          subst h64
          rw [← hzw, BitVec.setWidth_eq]; exact h1
      constructor
      · intro h
        rw [if_neg (fun h' => h (hmin h'))]; rfl
      · intro o ho
        split at ho
        · cases ho
        · cases ho
          refine ⟨c, rfl, Or.inl hct, good_int hcd ?_⟩
          intro r hr
          simp only [Spec.scalar, intUnary, Option.map_some, Option.some.injEq] at hr
          rw [← hr, setWidth_neg64 hw64, hzw]

theorem sConvert_good {w v : Nat} (hw : Width w) (hv : Width v) (s : Bool) {a : SConst} {x : BitVec v}
    (ha : SDenotes a (.int v x)) (hs : ∀ u, a.ty = .int u false → 32 ≤ u) :
    ∃ c, sConvert (.int w s) a = some (some c) ∧ c.ty = .int w s ∧
      Good .sConvert (.int w s) [.int v x] c := by
  obtain ⟨hpos, hcase⟩ := width_cases hw
  obtain ⟨z, hz, hzw, hzi⟩ := signExtended_spec hv ha
  obtain ⟨c, hc, hct, hcd⟩ := generateInt_spec hw s z
  refine ⟨c, ?_, hct, good_int hcd ?_⟩
  · simp [sConvert, hz, hc]
  · intro r hr
    simp only [Spec.scalar, intUnary, Option.map_some, Option.some.injEq] at hr
    rw [← hr, setWidth_eq_ofInt (by omega), hzi]
    intro s' hs'
    cases s'
    · exact Or.inr (hs _ hs')
    · exact Or.inl rfl

theorem uConvert_good {w v : Nat} (hw : Width w) (hv : Width v) (s : Bool) {a : SConst} {x : BitVec v}
    (ha : SDenotes a (.int v x)) :
    ∃ c, uConvert (.int w s) a = some (some c) ∧ c.ty = .int w s ∧
      Good .uConvert (.int w s) [.int v x] c := by
  obtain ⟨hpos, hcase⟩ := width_cases hw
  obtain ⟨hposv, hcasev⟩ := width_cases hv
  obtain ⟨z, hz, hzw, hzi⟩ := zeroExtended_spec hv ha
  obtain ⟨h1, h2⟩ := BitUtils.clearHighBits_spec z (64 - v)
  obtain ⟨e, he⟩ := Option.isSome_iff_exists.mp (h1.mpr (by omega))
  have h3 := h2 e he
  obtain ⟨c, hc, hct, hcd⟩ := generateInt_spec hw s e
  refine ⟨c, ?_, hct, good_int hcd ?_⟩
  · simp [uConvert, hz, ty_width ha, he, hc]
  · intro r hr
    simp only [Spec.scalar, intUnary, Option.map_some, Option.some.injEq] at hr
    rw [← hr, setWidth_eq_ofNat, h3, ← hzw, BitVec.toNat_setWidth]
    have : 64 - (64 - v) = v := by omega
    rw [this]

/-! ### Minimum and maximum -/

/-- The integer an operand stands for at a type of signedness `s`. -/
def key {w : Nat} (s : Bool) (x : BitVec w) : Int := if s then x.toInt else (x.toNat : Int)

theorem lessThan_key {w v : Nat} (s : Bool) (a b : BitVec w) (x y : BitVec v)
    (h1 : key s a = key s x) (h2 : key s b = key s y) :
    lessThan s a b = decide (key s x < key s y) := by
  rw [← h1, ← h2]
  unfold lessThan key
  cases s
  · simp only [Bool.false_eq_true, if_false, BitVec.ult]
    rw [Bool.eq_iff_iff]; simp
  · simp only [if_true, BitVec.slt]

theorem word32_spec {a : SConst} {w : Nat} {s : Bool} {x : BitVec w} (hle : w ≤ 32)
    (ha : SDenotes a (.int w x)) (hty : a.ty = .int w s) :
    ∃ xa, word32 a = some xa ∧ key s xa = key s x := by
  match a with
  | .bool b => simp [SDenotes] at ha
  | .null .bool => simp [SDenotes] at ha
  | .null (.int w' s') =>
      obtain ⟨rfl, rfl⟩ := ha
      exact ⟨0#32, rfl, by cases s <;> simp [key]⟩
  | .int w' s' ws =>
      obtain ⟨rfl, rfl⟩ := ha
      cases hty
      refine ⟨_, by simp only [word32, literalWords, if_pos hle]; rfl, ?_⟩
      cases s
      · have := x.isLt
        have h32 : 2 ^ w' ≤ 2 ^ 32 := Nat.pow_le_pow_right (by omega) hle
        simp only [key, Bool.false_eq_true, if_false, BitVec.toNat_setWidth]
        rw [Nat.mod_eq_of_lt (by omega)]
      · simp only [key, if_true]
        exact toInt_signExtend_ge _ hle

theorem word64_spec {a : SConst} {x : BitVec 64} (ha : SDenotes a (.int 64 x)) :
    word64 a = some x := by
  match a with
  | .bool b => simp [SDenotes] at ha
  | .null .bool => simp [SDenotes] at ha
  | .null (.int w' s') => obtain ⟨rfl, rfl⟩ := ha; rfl
  | .int w' s' ws =>
      obtain ⟨rfl, rfl⟩ := ha
      simp only [word64, literalWords]
      simp [joinWords_split]

theorem foldMin_spec {w : Nat} (hw : Width w) {s : Bool} {a b : SConst} {x y : BitVec w}
    (ha : SDenotes a (.int w x)) (hb : SDenotes b (.int w y))
    (hta : a.ty = .int w s) (htb : b.ty = .int w s) :
    foldMin (.int w s) a b = some (some (if key s x < key s y then a else b)) := by
  obtain ⟨hpos, hcase⟩ := width_cases hw
  rcases hcase with hle | rfl
  · obtain ⟨xa, h1, h2⟩ := word32_spec hle ha hta
    obtain ⟨xb, h3, h4⟩ := word32_spec hle hb htb
    simp [foldMin, if_pos hle, h1, h3, lessThan_key s xa xb x y h2 h4]
  · simp [foldMin, word64_spec ha, word64_spec hb, lessThan_key s x y x y rfl rfl]

theorem foldMax_spec {w : Nat} (hw : Width w) {s : Bool} {a b : SConst} {x y : BitVec w}
    (ha : SDenotes a (.int w x)) (hb : SDenotes b (.int w y))
    (hta : a.ty = .int w s) (htb : b.ty = .int w s) :
    foldMax (.int w s) a b = some (some (if key s y < key s x then a else b)) := by
  obtain ⟨hpos, hcase⟩ := width_cases hw
  rcases hcase with hle | rfl
  · obtain ⟨xa, h1, h2⟩ := word32_spec hle ha hta
    obtain ⟨xb, h3, h4⟩ := word32_spec hle hb htb
    simp [foldMax, if_pos hle, h1, h3, lessThan_key s xb xa y x h4 h2]
  · simp [foldMax, word64_spec ha, word64_spec hb, lessThan_key s y x y x rfl rfl]

theorem ofInt_key {w : Nat} (s : Bool) (x : BitVec w) : BitVec.ofInt w (key s x) = x := by
  cases s
  · simp only [key, Bool.false_eq_true, if_false]
    apply BitVec.eq_of_toNat_eq
    have := x.isLt
    rw [BitVec.toNat_ofInt]
    have h : ((x.toNat : Int) % ((2 ^ w : Nat) : Int)) = x.toNat := by
      exact_mod_cast Nat.mod_eq_of_lt this
    rw [h]; simp
  · simp [key]

/-- `SMin`/`UMin` and friends on integers of the matching signedness. -/
theorem intResult_min {w : Nat} (s : Bool) (x y : BitVec w) :
    intResult (if s then .sMin else .uMin) x y = some (min (key s x) (key s y)) := by
  cases s
  · simp only [Bool.false_eq_true, if_false, intResult, key]
    congr 1; omega
  · simp [intResult, key]

theorem intResult_max {w : Nat} (s : Bool) (x y : BitVec w) :
    intResult (if s then .sMax else .uMax) x y = some (max (key s x) (key s y)) := by
  cases s
  · simp only [Bool.false_eq_true, if_false, intResult, key]
    congr 1; omega
  · simp [intResult, key]

theorem intTernary_clamp {w : Nat} (s : Bool) (x lo hi : BitVec w) :
    intTernary (if s then .sClamp else .uClamp) x lo hi =
      if key s hi < key s lo then none else some (min (max (key s x) (key s lo)) (key s hi)) := by
  cases s
  · simp only [Bool.false_eq_true, if_false, intTernary, key]
    by_cases h : hi.toNat < lo.toNat
    · have h' : (hi.toNat : Int) < lo.toNat := by omega
      rw [if_pos h, if_pos h']
    · have h' : ¬ (hi.toNat : Int) < lo.toNat := by omega
      rw [if_neg h, if_neg h']
      congr 1
      omega
  · simp [intTernary, key]

/-! ## The word evaluator -/

/-- The 32-bit word of a boolean or 32-bit integer. -/
def raw : SVal → BitVec 32
  | .bool b => ofBool b
  | .int _ x => x.setWidth 32

theorem scalarWord_raw {c : SConst} {u : SVal} {t : STy} (h : SDenotes c u) (ht : HasSTy u t)
    (hf : t.foldable = true) : scalarWord (.scalar c) = some (raw u) := by
  match t, u with
  | .bool, .bool b =>
      match c with
      | .bool b' => cases h; rfl
      | .null .bool => cases h; rfl
      | .null (.int w s) => simp [SDenotes] at h
      | .int .. => simp [SDenotes] at h
  | .bool, .int .. => simp [HasSTy] at ht
  | .int .., .bool _ => simp [HasSTy] at ht
  | .int w s, .int w' x =>
      cases ht
      simp only [STy.foldable, beq_iff_eq] at hf
      subst hf
      match c with
      | .bool b' => simp [SDenotes] at h
      | .null .bool => simp [SDenotes] at h
      | .null (.int w s) => obtain ⟨rfl, rfl⟩ := h; rfl
      | .int w' s' ws =>
          obtain ⟨rfl, rfl⟩ := h
          simp [scalarWord, SConst.words?, literalWords, raw]

/-- `u` is what `GetConstant(type, {word})` makes of `v`. -/
def unraw (t : STy) (v : BitVec 32) : SVal :=
  match t with
  | .bool => .bool (toBool v)
  | .int _ _ => .int 32 v

theorem mkScalar_spec {t : STy} (hf : t.foldable = true) (v : BitVec 32) :
    (mkScalar t v).ty = t ∧ SDenotes (mkScalar t v) (unraw t v) ∧ HasSTy (unraw t v) t := by
  match t with
  | .bool => exact ⟨rfl, rfl, trivial⟩
  | .int w s =>
      simp only [STy.foldable, beq_iff_eq] at hf
      subst hf
      refine ⟨rfl, ⟨rfl, ?_⟩, rfl⟩
      simp [literalWords]

theorem toBool_ofBool (b : Bool) : toBool (ofBool b) = b := by cases b <;> decide

/-- The opcodes the evaluator knows. -/
def Op.evaluated : Op → Bool
  | .iAdd | .iSub | .iMul | .uDiv | .sDiv | .uMod | .sRem | .sMod
  | .sMin | .uMin | .sMax | .uMax | .sClamp | .uClamp => false
  | _ => true

theorem toInt_lt_32 (x : BitVec 32) : -2147483648 ≤ x.toInt ∧ x.toInt < 2147483648 := by
  have h1 := BitVec.le_toInt x
  have h2 := BitVec.toInt_lt (x := x)
  omega

theorem sra_spec (x y : BitVec 32) (n : Int)
    (hn : intResult .shiftRightArithmetic x y = some n) :
    ∃ v, binaryOperate .shiftRightArithmetic x y = some v ∧ v = BitVec.ofInt 32 n := by
  simp only [intResult] at hn
  split at hn
  · cases hn
  rename_i hle
  cases hn
  simp only [binaryOperate]
  rw [if_neg hle]
  have hb := toInt_lt_32 x
  by_cases h32 : y.toNat = 32
  · rw [if_pos h32]
    rw [h32, Int.fdiv_eq_ediv_of_nonneg _ (by decide)]
    by_cases h0 : 0 ≤ x.toInt
    · rw [if_pos h0]
      refine ⟨_, rfl, ?_⟩
      have : x.toInt / 2 ^ 32 = 0 := by omega
      rw [this]; rfl
    · rw [if_neg h0]
      refine ⟨_, rfl, ?_⟩
      have : x.toInt / 2 ^ 32 = -1 := by omega
      rw [this]; rfl
  · rw [if_neg h32]
    have hlt : y.toNat < 32 := by omega
    simp only [hostShift, if_pos hlt]
    refine ⟨_, rfl, ?_⟩
    apply BitVec.eq_of_toInt_eq
    rw [BitVec.toInt_sshiftRight, BitVec.toInt_ofInt, Int.shiftRight_eq_div_pow]
    have hp : (0 : Int) < 2 ^ y.toNat := by exact_mod_cast Nat.two_pow_pos _
    rw [Int.fdiv_eq_ediv_of_nonneg _ (by omega)]
    have h1 : x.toInt / 2 ^ y.toNat ≤ 2147483647 := by
      rcases Int.lt_or_le x.toInt 0 with h | h
      · have := Int.ediv_neg_of_neg_of_pos h hp; omega
      · have := Int.ediv_le_self (2 ^ y.toNat) h; omega
    have h2 : -2147483648 ≤ x.toInt / 2 ^ y.toNat := by
      rw [Int.le_ediv_iff_mul_le hp]
      have : (1 : Int) ≤ 2 ^ y.toNat := by omega
      omega
    symm
    have : ((2 ^ y.toNat : Nat) : Int) = 2 ^ y.toNat := by norm_cast
    rw [this]
    apply Int.bmod_eq_of_le <;> omega

theorem ofNat_le_32 (x y : BitVec 32) (h : 32 ≤ y.toNat) (h' : ¬ 32 < y.toNat) :
    BitVec.ofInt 32 ((x.toNat / 2 ^ y.toNat : Nat) : Int) = 0#32 ∧
    BitVec.ofInt 32 ((x.toNat * 2 ^ y.toNat : Nat) : Int) = 0#32 := by
  have h32 : y.toNat = 32 := by omega
  rw [h32]
  have := x.isLt
  constructor
  · rw [Nat.div_eq_of_lt this]; rfl
  · apply BitVec.eq_of_toNat_eq
    rw [BitVec.toNat_ofInt]
    simp

theorem binaryOperate_int {op : Op} (hop : op.evaluated = true) (x y : BitVec 32)
    {n : Int} (hn : intResult op x y = some n) :
    ∃ v, binaryOperate op x y = some v ∧ v = BitVec.ofInt 32 n := by
  cases op <;> simp only [Op.evaluated, Bool.false_eq_true] at hop <;>
    try (simp only [intResult, reduceCtorEq] at hn)
  case shiftRightArithmetic => exact sra_spec x y n (by simpa only [intResult] using hn)
  case shiftRightLogical =>
    split at hn
    · cases hn
    rename_i hle
    cases hn
    simp only [binaryOperate]
    by_cases h : 32 ≤ y.toNat
    · rw [if_pos h, (ofNat_le_32 x y h hle).1]; exact ⟨_, rfl, rfl⟩
    · rw [if_neg h, hostShift, if_pos (by omega)]
      refine ⟨_, rfl, ?_⟩
      apply BitVec.eq_of_toNat_eq
      show (x >>> y.toNat).toNat = _
      rw [BitVec.toNat_ushiftRight, BitVec.toNat_ofInt, Nat.shiftRight_eq_div_pow]
      have := x.isLt
      have h2 : x.toNat / 2 ^ y.toNat ≤ x.toNat := Nat.div_le_self _ _
      generalize x.toNat / 2 ^ y.toNat = q at *
      omega
  case shiftLeftLogical =>
    split at hn
    · cases hn
    rename_i hle
    cases hn
    simp only [binaryOperate]
    by_cases h : 32 ≤ y.toNat
    · rw [if_pos h, (ofNat_le_32 x y h hle).2]; exact ⟨_, rfl, rfl⟩
    · rw [if_neg h, hostShift, if_pos (by omega)]
      refine ⟨_, rfl, ?_⟩
      apply BitVec.eq_of_toNat_eq
      show (x <<< y.toNat).toNat = _
      rw [BitVec.toNat_shiftLeft, BitVec.toNat_ofInt, Nat.shiftLeft_eq]
      omega
  case bitwiseOr =>
    cases hn
    refine ⟨_, rfl, ?_⟩
    apply BitVec.eq_of_toNat_eq
    rw [BitVec.toNat_ofInt, ← BitVec.toNat_or]
    have := (x ||| y).isLt
    omega
  case bitwiseAnd =>
    cases hn
    refine ⟨_, rfl, ?_⟩
    apply BitVec.eq_of_toNat_eq
    rw [BitVec.toNat_ofInt, ← BitVec.toNat_and]
    have := (x &&& y).isLt
    omega
  case bitwiseXor =>
    cases hn
    refine ⟨_, rfl, ?_⟩
    apply BitVec.eq_of_toNat_eq
    rw [BitVec.toNat_ofInt, ← BitVec.toNat_xor]
    have := (x ^^^ y).isLt
    omega

theorem binaryOperate_compare {op : Op} (x y : BitVec 32) {b : Bool}
    (hn : intCompare op x y = some b) : binaryOperate op x y = some (ofBool b) := by
  cases op <;> simp only [intCompare, reduceCtorEq] at hn <;> cases hn <;>
    simp only [binaryOperate, BitVec.ult, BitVec.ule, BitVec.slt, BitVec.sle]
  case iEqual =>
    congr 2
    rw [Bool.eq_iff_iff]; simp [BitVec.toNat_inj]
  case iNotEqual =>
    congr 2
    rw [Bool.eq_iff_iff]; simp [BitVec.toNat_inj]

theorem unaryOperate_int {op : Op} (x : BitVec 32) {n : Int} (hc : op = .sNegate ∨ op = .not)
    (hn : intUnary op x = some n) : unaryOperate op x = some (BitVec.ofInt 32 n) := by
  rcases hc with rfl | rfl
  · cases hn
    simp only [unaryOperate]
    rw [BitVec.ofInt_neg, BitVec.ofInt_toInt]
    split
    · rename_i h; subst h; decide
    · rename_i h; simp [hostNeg32, h]
  · cases hn
    simp only [unaryOperate]
    congr 1
    have hneg : BitVec.ofInt 32 (-x.toInt) = -x := by rw [BitVec.ofInt_neg, BitVec.ofInt_toInt]
    rw [Int.sub_eq_add_neg, BitVec.ofInt_add, hneg, BitVec.neg_eq_not_add]
    have : BitVec.ofInt 32 (-1) = -1#32 := by decide
    rw [this, BitVec.add_comm, BitVec.add_assoc]
    have : 1#32 + -1#32 = 0#32 := by decide
    rw [this, BitVec.add_zero]

/-- Values of the given types, in order. -/
def Typed : List SVal → List STy → Prop
  | [], [] => True
  | u :: us, t :: ts => HasSTy u t ∧ Typed us ts
  | _, _ => False

theorem foldable32 {w : Nat} {s : Bool} (h : (STy.int w s).foldable = true) : w = 32 := by
  simpa [STy.foldable] using h

theorem typed_int {u : SVal} {w : Nat} {s : Bool} (h : HasSTy u (.int w s)) : ∃ x, u = .int w x := by
  match u with
  | .bool _ => simp [HasSTy] at h
  | .int w' x => cases h; exact ⟨x, rfl⟩

theorem typed_bool {u : SVal} (h : HasSTy u .bool) : ∃ b, u = .bool b := by
  match u with
  | .bool b => exact ⟨b, rfl⟩
  | .int w' x => simp [HasSTy] at h

theorem typed1 {us : List SVal} {t : STy} (h : Typed us [t]) : ∃ a, us = [a] ∧ HasSTy a t := by
  match us with
  | [] => simp [Typed] at h
  | [a] => simp [Typed] at h; exact ⟨a, rfl, h⟩
  | a :: b :: r => simp [Typed] at h

theorem typed2 {us : List SVal} {t1 t2 : STy} (h : Typed us [t1, t2]) :
    ∃ a b, us = [a, b] ∧ HasSTy a t1 ∧ HasSTy b t2 := by
  match us with
  | [] => simp [Typed] at h
  | [a] => simp [Typed] at h
  | [a, b] => simp [Typed] at h; exact ⟨a, b, rfl, h.1, h.2⟩
  | a :: b :: c :: r => simp [Typed] at h

theorem typed3 {us : List SVal} {t1 t2 t3 : STy} (h : Typed us [t1, t2, t3]) :
    ∃ a b c, us = [a, b, c] ∧ HasSTy a t1 ∧ HasSTy b t2 ∧ HasSTy c t3 := by
  match us with
  | [] => simp [Typed] at h
  | [a] => simp [Typed] at h
  | [a, b] => simp [Typed] at h
  | [a, b, c] => simp [Typed] at h; exact ⟨a, b, c, rfl, h.1, h.2.1, h.2.2⟩
  | a :: b :: c :: d :: r => simp [Typed] at h

theorem binaryOperate_isSome {op : Op} (hop : op.evaluated = true)
    (h2 : op ≠ .sNegate ∧ op ≠ .not ∧ op ≠ .logicalNot ∧ op ≠ .uConvert ∧ op ≠ .sConvert ∧
      op ≠ .select) (x y : BitVec 32) : ∃ v, binaryOperate op x y = some v := by
  cases op <;> simp [Op.evaluated] at hop h2 <;> simp only [binaryOperate]
  case shiftRightArithmetic =>
    split
    · exact ⟨_, rfl⟩
    · split
      · split <;> exact ⟨_, rfl⟩
      · rw [hostShift, if_pos (by omega)]; exact ⟨_, rfl⟩
  case shiftRightLogical =>
    split
    · exact ⟨_, rfl⟩
    · rw [hostShift, if_pos (by omega)]; exact ⟨_, rfl⟩
  case shiftLeftLogical =>
    split
    · exact ⟨_, rfl⟩
    · rw [hostShift, if_pos (by omega)]; exact ⟨_, rfl⟩
  all_goals exact ⟨_, rfl⟩

theorem operate_int2 {op : Op} (hop : op.evaluated = true)
    (h2 : op ≠ .sNegate ∧ op ≠ .not ∧ op ≠ .logicalNot ∧ op ≠ .uConvert ∧ op ≠ .sConvert ∧
      op ≠ .select) {s s1 s2 : Bool} {w2 : Nat} (hw2 : w2 = 32)
    {us : List SVal} (hus : Typed us [.int 32 s1, .int w2 s2]) :
    ∃ v, operateWords op (us.map raw) = some v ∧
      ∀ r, Spec.scalar op (.int 32 s) us = some r → unraw (.int 32 s) v = r := by
  subst hw2
  obtain ⟨a, b, rfl, ha, hb⟩ := typed2 hus
  obtain ⟨x, rfl⟩ := typed_int ha
  obtain ⟨y, rfl⟩ := typed_int hb
  simp only [List.map_cons, List.map_nil, raw, operateWords, BitVec.setWidth_eq]
  obtain ⟨v, hv⟩ := binaryOperate_isSome hop h2 x y
  refine ⟨v, hv, ?_⟩
  intro r hr
  simp only [Spec.scalar, Option.map_eq_some_iff] at hr
  obtain ⟨n, hn, rfl⟩ := hr
  obtain ⟨v', hv', rfl⟩ := binaryOperate_int hop x y hn
  rw [hv] at hv'; cases hv'
  rfl

theorem operate_cmp {op : Op} (hop : op.evaluated = true)
    (h2 : op ≠ .sNegate ∧ op ≠ .not ∧ op ≠ .logicalNot ∧ op ≠ .uConvert ∧ op ≠ .sConvert ∧
      op ≠ .select) {s1 s2 : Bool}
    {us : List SVal} (hus : Typed us [.int 32 s1, .int 32 s2]) :
    ∃ v, operateWords op (us.map raw) = some v ∧
      ∀ r, Spec.scalar op .bool us = some r → unraw .bool v = r := by
  obtain ⟨a, b, rfl, ha, hb⟩ := typed2 hus
  obtain ⟨x, rfl⟩ := typed_int ha
  obtain ⟨y, rfl⟩ := typed_int hb
  simp only [List.map_cons, List.map_nil, raw, operateWords, BitVec.setWidth_eq]
  obtain ⟨v, hv⟩ := binaryOperate_isSome hop h2 x y
  refine ⟨v, hv, ?_⟩
  intro r hr
  simp only [Spec.scalar, Option.map_eq_some_iff] at hr
  obtain ⟨b, hb, rfl⟩ := hr
  rw [binaryOperate_compare x y hb] at hv
  cases hv
  simp [unraw, toBool_ofBool]

theorem operate_bool2 {op : Op} (hop : op = .logicalEqual ∨ op = .logicalNotEqual ∨
      op = .logicalOr ∨ op = .logicalAnd) {us : List SVal} (hus : Typed us [.bool, .bool]) :
    ∃ v, operateWords op (us.map raw) = some v ∧
      ∀ r, Spec.scalar op .bool us = some r → unraw .bool v = r := by
  obtain ⟨a, b, rfl, ha, hb⟩ := typed2 hus
  obtain ⟨x, rfl⟩ := typed_bool ha
  obtain ⟨y, rfl⟩ := typed_bool hb
  simp only [List.map_cons, List.map_nil, raw, operateWords]
  rcases hop with rfl | rfl | rfl | rfl <;>
    exact ⟨_, rfl, by simp [Spec.scalar, boolBinary, unraw, toBool_ofBool]⟩

theorem operate_unary {op : Op} (hop : op = .sNegate ∨ op = .not) {s s1 : Bool}
    {us : List SVal} (hus : Typed us [.int 32 s1]) :
    ∃ v, operateWords op (us.map raw) = some v ∧
      ∀ r, Spec.scalar op (.int 32 s) us = some r → unraw (.int 32 s) v = r := by
  obtain ⟨a, rfl, ha⟩ := typed1 hus
  obtain ⟨x, rfl⟩ := typed_int ha
  simp only [List.map_cons, List.map_nil, raw, operateWords, BitVec.setWidth_eq]
  have hn : ∃ n, intUnary op x = some n := by rcases hop with rfl | rfl <;> exact ⟨_, rfl⟩
  obtain ⟨n, hn⟩ := hn
  refine ⟨_, unaryOperate_int x hop hn, ?_⟩
  intro r hr
  simp only [Spec.scalar, hn, Option.map_some, Option.some.injEq] at hr
  rw [← hr]; rfl

/-- What the evaluator computes, for operands of the right types. -/
theorem operate_good {op : Op} (hop : op.evaluated = true) {t : STy} {ts : List STy}
    (hr : elemRule op t ts) (hf : t.foldable = true) (hfs : ∀ t' ∈ ts, t'.foldable = true)
    {us : List SVal} (hus : Typed us ts) :
    ∃ v, operateWords op (us.map raw) = some v ∧
      ∀ r, Spec.scalar op t us = some r → unraw t v = r := by
  cases op <;> simp only [Op.evaluated, Bool.false_eq_true] at hop <;> simp only [elemRule] at hr
  case shiftRightLogical | shiftRightArithmetic | shiftLeftLogical =>
    obtain ⟨w, s, s1, w2, s2, _, _, rfl, rfl⟩ := hr
    have := foldable32 hf; subst this
    exact operate_int2 rfl (by simp) (foldable32 (hfs _ (.tail _ (.head _)))) hus
  case bitwiseOr | bitwiseAnd | bitwiseXor =>
    obtain ⟨w, s, s1, s2, _, rfl, rfl⟩ := hr
    have := foldable32 hf; subst this
    exact operate_int2 rfl (by simp) rfl hus
  case logicalEqual | logicalNotEqual | logicalOr | logicalAnd =>
    obtain ⟨rfl, rfl⟩ := hr
    exact operate_bool2 (by simp) hus
  case sNegate | not =>
    obtain ⟨w, s, s1, _, rfl, rfl⟩ := hr
    have := foldable32 hf; subst this
    exact operate_unary (by simp) hus
  case logicalNot =>
    obtain ⟨rfl, rfl⟩ := hr
    obtain ⟨a, rfl, ha⟩ := typed1 hus
    obtain ⟨x, rfl⟩ := typed_bool ha
    refine ⟨_, rfl, ?_⟩
    simp [Spec.scalar, unraw, raw, toBool_ofBool]
  case uConvert =>
    obtain ⟨w, w1, s1, _, _, hne, rfl, rfl⟩ := hr
    exact absurd ((foldable32 hf).trans (foldable32 (hfs _ (.head _))).symm) hne
  case sConvert =>
    obtain ⟨w, s, w1, s1, _, _, hne, rfl, rfl⟩ := hr
    exact absurd ((foldable32 hf).trans (foldable32 (hfs _ (.head _))).symm) hne
  case select =>
    obtain ⟨_, rfl⟩ := hr
    obtain ⟨a, b, c, rfl, ha, hb, hc⟩ := typed3 hus
    obtain ⟨x, rfl⟩ := typed_bool ha
    refine ⟨_, rfl, ?_⟩
    intro r hr
    match t with
    | .bool =>
        obtain ⟨y, rfl⟩ := typed_bool hb
        obtain ⟨z, rfl⟩ := typed_bool hc
        simp only [Spec.scalar, if_true, Option.some.injEq] at hr
        rw [← hr]
        cases x <;> simp [unraw, raw, toBool_ofBool]
    | .int w s =>
        obtain ⟨y, rfl⟩ := typed_int hb
        obtain ⟨z, rfl⟩ := typed_int hc
        have := foldable32 hf; subst this
        simp only [Spec.scalar, if_true, Option.some.injEq] at hr
        rw [← hr]
        cases x <;> simp [unraw, raw, toBool_ofBool]
  all_goals
    obtain ⟨w, s1, s2, _, rfl, rfl⟩ := hr
    have := foldable32 (hfs _ (.head _)); subst this
    exact operate_cmp rfl (by simp) hus

/-! ## Rules that need one constant only -/

theorem toNat_le_max (x : BitVec 32) : x.toNat ≤ uint32Max.toNat := by
  have := x.isLt
  have : uint32Max.toNat = 4294967295 := by decide
  omega

theorem toInt_bounds (x : BitVec 32) : int32Min.toInt ≤ x.toInt ∧ x.toInt ≤ int32Max.toInt := by
  have := toInt_lt_32 x
  have h1 : int32Max.toInt = 2147483647 := by decide
  have h2 : int32Min.toInt = -2147483648 := by decide
  omega

/-- The result does not depend on the unknown operand. -/
theorem foldBinaryInteger_int {op : Op} {c0 c1 : Option (BitVec 32)} {x y : BitVec 32}
    (h0 : ∀ c, c0 = some c → c = x) (h1 : ∀ c, c1 = some c → c = y) {v : BitVec 32}
    (hv : foldBinaryInteger op c0 c1 = some v) :
    (∀ n, intResult op x y = some n → v = BitVec.ofInt 32 n) ∧
    (∀ b, intCompare op x y = some b → toBool v = b) := by
  have hx := toNat_le_max x
  have hy := toNat_le_max y
  have hxi := toInt_bounds x
  have hyi := toInt_bounds y
  have z0 : (0#32).toNat = 0 := rfl
  have z1 : (0#32).toInt = 0 := rfl
  cases op <;> simp only [foldBinaryInteger, reduceCtorEq] at hv
  case iMul =>
    split at hv <;> cases hv
    rename_i h
    refine ⟨?_, by simp [intCompare]⟩
    rintro n ⟨⟩
    rcases h with h | h
    · rw [← h0 _ h]; simp
    · rw [← h1 _ h]; simp
  case uDiv =>
    split at hv <;> cases hv
    rename_i h
    refine ⟨?_, by simp [intCompare]⟩
    intro n hn
    simp only [intResult] at hn
    split at hn <;> cases hn
    rcases h with h | h
    · rw [← h0 _ h]; simp
    · rename_i hne; rw [← h1 _ h] at hne; exact absurd rfl hne
  case uMod =>
    split at hv <;> cases hv
    rename_i h
    refine ⟨?_, by simp [intCompare]⟩
    intro n hn
    simp only [intResult] at hn
    split at hn <;> cases hn
    rcases h with h | h
    · rw [← h0 _ h]; simp
    · rename_i hne; rw [← h1 _ h] at hne; exact absurd rfl hne
  case sDiv =>
    split at hv <;> cases hv
    rename_i h
    refine ⟨?_, by simp [intCompare]⟩
    intro n hn
    simp only [intResult] at hn
    split at hn <;> cases hn
    rcases h with h | h
    · rw [← h0 _ h]; simp
    · rename_i hne; rw [← h1 _ h] at hne; exact absurd (Or.inl rfl) hne
  case sRem =>
    split at hv <;> cases hv
    rename_i h
    refine ⟨?_, by simp [intCompare]⟩
    intro n hn
    simp only [intResult] at hn
    split at hn <;> cases hn
    rcases h with h | h
    · rw [← h0 _ h]; simp
    · rename_i hne; rw [← h1 _ h] at hne; exact absurd (Or.inl rfl) hne
  case sMod =>
    split at hv <;> cases hv
    rename_i h
    refine ⟨?_, by simp [intCompare]⟩
    intro n hn
    simp only [intResult] at hn
    split at hn <;> cases hn
    rcases h with h | h
    · rw [← h0 _ h]; simp
    · rename_i hne; rw [← h1 _ h] at hne; exact absurd (Or.inl rfl) hne
  case shiftRightLogical =>
    split at hv
    · rename_i s
      split at hv <;> cases hv
      rename_i h
      refine ⟨?_, by simp [intCompare]⟩
      intro n hn
      rw [h1 s rfl] at h
      simp only [intResult] at hn
      split at hn <;> cases hn
      rename_i h'
      exact (ofNat_le_32 x y h h').1.symm
    · cases hv
  case shiftLeftLogical =>
    split at hv
    · rename_i s
      split at hv <;> cases hv
      rename_i h
      refine ⟨?_, by simp [intCompare]⟩
      intro n hn
      rw [h1 s rfl] at h
      simp only [intResult] at hn
      split at hn <;> cases hn
      rename_i h'
      exact (ofNat_le_32 x y h h').2.symm
    · cases hv
  case bitwiseOr =>
    split at hv <;> cases hv
    rename_i h
    refine ⟨?_, by simp [intCompare]⟩
    rintro n ⟨⟩
    have e : ∀ z : BitVec 32, BitVec.ofInt 32 ((z.toNat : Nat) : Int) = z := by
      intro z
      apply BitVec.eq_of_toNat_eq
      rw [BitVec.toNat_ofInt]
      have := z.isLt
      omega
    rw [← BitVec.toNat_or, e]
    rcases h with h | h
    · rw [← h0 _ h]
      show BitVec.allOnes 32 = BitVec.allOnes 32 ||| y
      rw [BitVec.allOnes_or]
    · rw [← h1 _ h]
      show BitVec.allOnes 32 = x ||| BitVec.allOnes 32
      rw [BitVec.or_allOnes]
  case bitwiseAnd =>
    split at hv <;> cases hv
    rename_i h
    refine ⟨?_, by simp [intCompare]⟩
    rintro n ⟨⟩
    rcases h with h | h
    · rw [← h0 _ h]; simp
    · rw [← h1 _ h]; simp
  all_goals
    split at hv <;> cases hv
    rename_i h
    refine ⟨by simp [intResult], ?_⟩
    rintro b ⟨⟩
    rw [toBool_ofBool]
    symm
    first
      | apply decide_eq_false
      | apply decide_eq_true
    rcases h with h | h
    · have e := h0 _ h; subst e; omega
    · have e := h1 _ h; subst e; omega

theorem foldBinaryBoolean_bool {op : Op} {c0 c1 : Option Bool} {x y : Bool}
    (h0 : ∀ c, c0 = some c → c = x) (h1 : ∀ c, c1 = some c → c = y) {v : BitVec 32}
    (hv : foldBinaryBoolean op c0 c1 = some v) :
    ∀ b, boolBinary op x y = some b → toBool v = b := by
  cases op <;> simp only [foldBinaryBoolean, reduceCtorEq] at hv
  · split at hv <;> cases hv
    rename_i h
    rintro b ⟨⟩
    rw [toBool_ofBool]
    rcases h with h | h
    · rw [← h0 _ h]; rfl
    · rw [← h1 _ h]; simp
  · split at hv <;> cases hv
    rename_i h
    rintro b ⟨⟩
    rw [toBool_ofBool]
    rcases h with h | h
    · rw [← h0 _ h]; rfl
    · rw [← h1 _ h]; simp

end Verif.Fold
