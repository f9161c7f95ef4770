import Verif.Rules.Inv

set_option linter.unusedSimpArgs false
set_option linter.unusedVariables false
set_option linter.unusedSectionVars false

/-! # Lemmas: computing with constants -/
namespace Verif.Rules

variable {F : Type} [FloatSem F] [DecidableEq F]

theorem getF_val {c : SC F} {x : F} (h : c.getF = .ret x) : c.val = .f x := by
  unfold SC.getF at h; split at h
  · injection h with h; subst h; rfl
  · injection h with h; subst h; rfl
  · cases h

theorem getI_val {c : SC F} {w : Nat} {v : BitVec w} (h : c.getI w = .ret v) : c.val = .i w v := by
  unfold SC.getI at h; split at h
  · split at h
    · rename_i hw
      subst hw
      injection h with h; subst h; rfl
    · cases h
  · split at h
    · rename_i hw; subst hw
      injection h with h; subst h; rfl
    · cases h
  · cases h

theorem isZero_f {c : SC F} {x : F} (h : c.val = .f x) : c.isZero = decide (x = 0) := by
  unfold SC.val at h; split at h <;> first | (injection h with h; subst h; simp [SC.isZero]; done) | cases h

theorem isZero_i {c : SC F} {w : Nat} {x : BitVec w} (h : c.val = .i w x) : c.isZero = decide (x = 0#w) := by
  unfold SC.val at h; split at h
  · injection h with h1 h2; subst h1; cases h2; rename_i v; simp only [SC.isZero]; rfl
  · cases h
  · cases h
  · injection h with h1 h2; subst h1; cases h2; simp [SC.isZero]
  · cases h
  · cases h
  · cases h

/-- All components of a constant, by lane. -/
theorem Const.zero_f {c : Const F} (hz : c.isZero = true) {i : Nat} {x : F}
    (h : c.lanes[i]? = some (.f x)) : x = 0 := by
  cases c with
  | sc c =>
    simp only [Const.lanes] at h
    rcases i with _ | i
    · simp at h; have := isZero_f h; simp [Const.isZero, this] at hz; exact hz
    · simp at h
  | vec b cs =>
    simp only [Const.lanes, List.getElem?_map, Option.map_eq_some_iff] at h
    obtain ⟨a, ha, hv⟩ := h
    simp only [Const.isZero, List.all_eq_true] at hz
    have := hz a (List.mem_of_getElem? ha)
    rw [isZero_f hv] at this; simpa using this
  | nullv b n =>
    simp only [Const.lanes, List.getElem?_replicate] at h
    split at h
    · cases b <;> simp [SC.val] at h; exact h.symm
    · cases h

theorem Const.zero_i {c : Const F} (hz : c.isZero = true) {i w : Nat} {x : BitVec w}
    (h : c.lanes[i]? = some (.i w x)) : x = 0#w := by
  cases c with
  | sc c =>
    simp only [Const.lanes] at h
    rcases i with _ | i
    · simp at h; have := isZero_i h; simp [Const.isZero, this] at hz; exact hz
    · simp at h
  | vec b cs =>
    simp only [Const.lanes, List.getElem?_map, Option.map_eq_some_iff] at h
    obtain ⟨a, ha, hv⟩ := h
    simp only [Const.isZero, List.all_eq_true] at hz
    have := hz a (List.mem_of_getElem? ha)
    rw [isZero_i hv] at this; simpa using this
  | nullv b n =>
    simp only [Const.lanes, List.getElem?_replicate] at h
    split at h
    · cases b <;> simp [SC.val] at h
      obtain ⟨rfl, h⟩ := h; simpa using h.symm
    · cases h

theorem Const.nonzero_f {c : Const F} (hz : c.hasZero = false) {i : Nat} {x : F}
    (h : c.lanes[i]? = some (.f x)) : x ≠ 0 := by
  cases c with
  | sc c =>
    simp only [Const.lanes] at h
    rcases i with _ | i
    · simp at h; have := isZero_f h; simp [Const.hasZero, this] at hz; exact hz
    · simp at h
  | vec b cs =>
    simp only [Const.lanes, List.getElem?_map, Option.map_eq_some_iff] at h
    obtain ⟨a, ha, hv⟩ := h
    simp only [Const.hasZero, List.any_eq_false] at hz
    have := hz a (List.mem_of_getElem? ha)
    rw [isZero_f hv] at this; simpa using this
  | nullv b n => simp [Const.hasZero] at hz

theorem each_ret {α β} {f : α → Out β} : ∀ {l : List α} {l' : List β}, each f l = .ret l' →
    l'.length = l.length ∧ ∀ (i : Nat) a, l[i]? = some a → ∃ b, l'[i]? = some b ∧ f a = .ret b
  | [], l', h => by
    simp only [each, ret_inj] at h; subst h; simp
  | a :: as, l', h => by
    simp only [each, bind_ret, ret_inj] at h
    obtain ⟨b, hb, bs, hbs, rfl⟩ := h
    have ih := each_ret hbs
    refine ⟨by simp [ih.1], ?_⟩
    intro i x hx
    rcases i with _ | i
    · simp at hx; subst hx; exact ⟨b, by simp, hb⟩
    · simpa using ih.2 i x (by simpa using hx)

theorem negFloat_val {c c' : SC F} (h : negFloat c = .ret c') : ∃ x, c.val = .f x ∧ c'.val = .f (-x) := by
  unfold negFloat at h; split at h
  · simp only [bind_ret, must_ret, ret_inj] at h
    obtain ⟨_, _, x, hx, rfl⟩ := h
    exact ⟨x, getF_val hx, rfl⟩
  · cases h

theorem negInt_val {c c' : SC F} (h : negInt c = .ret c') :
    ∃ w v, c.val = .i w v ∧ c'.val = .i w (-v) := by
  unfold negInt at h; split at h
  · simp only [bind_ret, must_ret, ret_inj] at h
    obtain ⟨_, _, x, hx, rfl⟩ := h
    exact ⟨_, x, getI_val hx, by simp [SC.val]⟩
  · cases h

/-- A scalar and its negation. -/
def NegOf (a b : SV F) : Prop :=
  (∃ x, a = .f x ∧ b = .f (-x)) ∨ (∃ w v, a = .i w v ∧ b = .i w (-v))

theorem negate_lane {c c' : Const F} (h : negate c = .ret c') {i : Nat} {s : SV F}
    (hs : c.lanes[i]? = some s) (hn : (∃ x, s = .f x) ∨ ∃ w v, s = .i w v) :
    ∃ t, c'.lanes[i]? = some t ∧ NegOf s t := by
  cases c with
  | nullv b n =>
    simp only [negate, ret_inj] at h; subst h
    refine ⟨s, hs, ?_⟩
    simp only [Const.lanes, List.getElem?_replicate] at hs
    split at hs
    · injection hs with hs
      cases b <;> simp [SC.val] at hs <;> subst hs
      · right; exact ⟨_, 0#_, rfl, by simp⟩
      · left; refine ⟨0, rfl, ?_⟩; congr 1; grind
      · simp at hn
      · simp at hn
    · cases hs
  | sc c =>
    rcases i with _ | i
    · simp only [Const.lanes, List.getElem?_cons_zero, Option.some.injEq] at hs
      simp only [negate] at h; split at h
      · simp only [bind_ret, ret_inj] at h
        obtain ⟨a, ha, rfl⟩ := h
        obtain ⟨x, hx, hy⟩ := negFloat_val ha
        exact ⟨a.val, by simp [Const.lanes], .inl ⟨x, by rw [← hs, hx], hy⟩⟩
      · simp only [bind_ret, ret_inj] at h
        obtain ⟨a, ha, rfl⟩ := h
        obtain ⟨w, x, hx, hy⟩ := negInt_val ha
        exact ⟨a.val, by simp [Const.lanes], .inr ⟨w, x, by rw [← hs, hx], hy⟩⟩
    · simp [Const.lanes] at hs
  | vec b cs =>
    simp only [Const.lanes, List.getElem?_map, Option.map_eq_some_iff] at hs
    obtain ⟨a, ha, hv⟩ := hs
    simp only [negate] at h; split at h
    · simp only [bind_ret, ret_inj] at h
      obtain ⟨as, has, rfl⟩ := h
      obtain ⟨b, hb, hf⟩ := (each_ret has).2 i a ha
      obtain ⟨x, hx, hy⟩ := negFloat_val hf
      exact ⟨b.val, by simp [Const.lanes, hb], .inl ⟨x, by rw [← hv, hx], hy⟩⟩
    · simp only [bind_ret, ret_inj] at h
      obtain ⟨as, has, rfl⟩ := h
      obtain ⟨b, hb, hf⟩ := (each_ret has).2 i a ha
      obtain ⟨w, x, hx, hy⟩ := negInt_val hf
      exact ⟨b.val, by simp [Const.lanes, hb], .inr ⟨w, x, by rw [← hv, hx], hy⟩⟩

theorem negate_f {c c' : Const F} (h : negate c = .ret c') {i : Nat} {x : F}
    (hs : c.lanes[i]? = some (.f x)) : c'.lanes[i]? = some (.f (-x)) := by
  obtain ⟨t, ht, ⟨y, h1, h2⟩ | ⟨w, v, h1, h2⟩⟩ := negate_lane h hs (.inl ⟨_, rfl⟩)
  · injection h1 with h1; subst h1; rw [ht, h2]
  · cases h1

theorem negate_i {c c' : Const F} (h : negate c = .ret c') {i w : Nat} {x : BitVec w}
    (hs : c.lanes[i]? = some (.i w x)) : c'.lanes[i]? = some (.i w (-x)) := by
  obtain ⟨t, ht, ⟨y, h1, h2⟩ | ⟨w, v, h1, h2⟩⟩ := negate_lane h hs (.inr ⟨_, _, rfl⟩)
  · cases h1
  · cases h1; rw [ht, h2]

theorem rcpS_val {valid : F → Bool} {c c' : SC F} (h : rcpS valid c = .ret c') :
    ∃ x, c.val = .f x ∧ x ≠ 0 ∧ c'.val = .f (1 / x) := by
  unfold rcpS at h; split at h
  · simp only [bind_ret, must_ret, need_ret, ret_inj] at h
    obtain ⟨_, _, _, hz, x, hx, _, _, rfl⟩ := h
    have := isZero_f (getF_val hx)
    refine ⟨x, getF_val hx, ?_, rfl⟩
    rw [this] at hz; simpa using hz
  · cases h

theorem rcp_lane {valid : F → Bool} {c c' : Const F} (h : rcp valid c = .ret c') {i : Nat} {s : SV F}
    (hs : c.lanes[i]? = some s) : ∃ x, s = .f x ∧ x ≠ 0 ∧ c'.lanes[i]? = some (.f (1 / x)) := by
  unfold rcp at h; split at h
  · simp only [bind_ret, ret_inj] at h
    obtain ⟨a, ha, rfl⟩ := h
    obtain ⟨x, hx, h0, hy⟩ := rcpS_val ha
    rcases i with _ | i
    · simp only [Const.lanes, List.getElem?_cons_zero, Option.some.injEq] at hs
      exact ⟨x, by rw [← hs, hx], h0, by simp [Const.lanes, hy]⟩
    · simp [Const.lanes] at hs
  · cases h

/-- What `performFloat` computes. -/
def FOp (op : Op) (x y z : F) : Prop :=
  (op = .fmul ∧ z = x * y) ∨ (op = .fdiv ∧ y ≠ 0 ∧ z = x / y) ∨ (op = .fadd ∧ z = x + y) ∨
  (op = .fsub ∧ z = x - y)

/-- What `performInt` computes. -/
def IOp (op : Op) {w : Nat} (x y z : BitVec w) : Prop :=
  (op = .imul ∧ z = x * y) ∨ (op = .iadd ∧ z = x + y) ∨ (op = .isub ∧ z = x - y) ∨
  (op = .xor ∧ z = x ^^^ y) ∨ (op = .or ∧ z = x ||| y) ∨ (op = .and ∧ z = x &&& y)

theorem performFloat_val {valid : F → Bool} {op : Op} {a b c : SC F}
    (h : performFloat valid op a b = .ret c) :
    ∃ x y z, a.val = .f x ∧ b.val = .f y ∧ c.val = .f z ∧ FOp op x y z := by
  unfold performFloat at h; split at h
  · simp only [bind_ret, must_ret] at h
    obtain ⟨_, _, x, hx, y, hy, h⟩ := h
    split at h
    · simp only [bind_ret, need_ret, ret_inj] at h
      obtain ⟨_, _, rfl⟩ := h
      exact ⟨x, y, _, getF_val hx, getF_val hy, rfl, by simp [FOp]⟩
    · simp only [bind_ret, need_ret, ret_inj] at h
      obtain ⟨_, hz, _, _, rfl⟩ := h
      have := isZero_f (getF_val hy)
      rw [this] at hz
      exact ⟨x, y, _, getF_val hx, getF_val hy, rfl, .inr (.inl ⟨rfl, by simpa using hz, rfl⟩)⟩
    · simp only [bind_ret, need_ret, ret_inj] at h
      obtain ⟨_, _, rfl⟩ := h
      exact ⟨x, y, _, getF_val hx, getF_val hy, rfl, by simp [FOp]⟩
    · simp only [bind_ret, need_ret, ret_inj] at h
      obtain ⟨_, _, rfl⟩ := h
      exact ⟨x, y, _, getF_val hx, getF_val hy, rfl, by simp [FOp]⟩
    · cases h
  · cases h

theorem performInt_val {op : Op} {a b c : SC F} (h : performInt op a b = .ret c) :
    ∃ w, ∃ x y z : BitVec w, a.val = .i w x ∧ b.val = .i w y ∧ c.val = .i w z ∧ IOp op x y z := by
  unfold performInt at h; split at h
  · simp only [bind_ret, must_ret] at h
    obtain ⟨_, _, x, hx, y, hy, h⟩ := h
    split at h <;> first
      | (simp only [ret_inj] at h; subst h
         exact ⟨_, x, y, _, getI_val hx, getI_val hy, rfl, by simp [IOp]⟩)
      | cases h
  · cases h

theorem performS_val {valid : F → Bool} {op : Op} {bs : Base} {a b c : SC F}
    (h : performS valid op bs a b = .ret c) :
    (∃ x y z, a.val = .f x ∧ b.val = .f y ∧ c.val = .f z ∧ FOp op x y z) ∨
    (∃ w, ∃ x y z : BitVec w, a.val = .i w x ∧ b.val = .i w y ∧ c.val = .i w z ∧ IOp op x y z) := by
  unfold performS at h; split at h
  · exact .inl (performFloat_val h)
  · exact .inr (performInt_val h)

/-- Component `k` of a constant is its lane `k` (null constants may be of another type). -/
theorem comp_val {c : Const F} {b : Base} {k : Nat} {x : SC F} (h : c.comp b k = .ret x) {s : SV F}
    (hs : c.lanes[k]? = some s) :
    x.val = s ∨ (x = .null b ∧ ∃ b', s = (SC.null (F := F) b').val) := by
  cases c with
  | vec b' cs =>
    simp only [Const.comp, at?_ret] at h
    simp only [Const.lanes, List.getElem?_map, h, Option.map_some, Option.some.injEq] at hs
    exact .inl hs
  | sc c =>
    simp only [Const.comp, Const.isNull] at h
    cases c <;> simp [SC.isNull, ret_inj] at h
    rename_i b'
    rcases k with _ | k <;> simp [Const.lanes] at hs
    exact .inr ⟨h.symm, b', hs.symm⟩
  | nullv b' n =>
    simp only [Const.comp, Const.isNull, if_true, ret_inj] at h
    simp only [Const.lanes, List.getElem?_replicate] at hs
    split at hs
    · injection hs with hs; exact .inr ⟨h, b', hs.symm⟩
    · cases hs

theorem comp_f {c : Const F} {b : Base} {k : Nat} {x : SC F} (h : c.comp b k = .ret x) {y z : F}
    (hs : c.lanes[k]? = some (.f y)) (hx : x.val = .f z) : z = y := by
  rcases comp_val h hs with h1 | ⟨h1, b', h2⟩
  · rw [hx] at h1; injection h1
  · subst h1
    cases b <;> simp [SC.val] at hx
    cases b' <;> simp [SC.val] at h2
    rw [← hx, ← h2]

theorem comp_i {c : Const F} {b : Base} {k : Nat} {x : SC F} (h : c.comp b k = .ret x) {w w' : Nat}
    {y : BitVec w} {z : BitVec w'}
    (hs : c.lanes[k]? = some (.i w y)) (hx : x.val = .i w' z) (hw : w' = w) : z = hw ▸ y := by
  subst hw
  rcases comp_val h hs with h1 | ⟨h1, b', h2⟩
  · rw [hx] at h1; cases h1; rfl
  · subst h1
    cases b <;> simp [SC.val] at hx
    cases b' <;> simp [SC.val] at h2
    obtain ⟨rfl, hx⟩ := hx
    obtain ⟨rfl, h2⟩ := h2
    simp at hx h2 ⊢; rw [← hx, h2]

theorem comp_self {c : Const F} {k : Nat} {x : SC F} (h : c.comp c.ty.base k = .ret x) {s : SV F}
    (hv : c.ty.vec ≠ none) (hs : c.lanes[k]? = some s) : x.val = s := by
  cases c with
  | vec b' cs =>
    simp only [Const.comp, at?_ret] at h
    simp only [Const.lanes, List.getElem?_map, h, Option.map_some, Option.some.injEq] at hs
    exact hs
  | sc c => simp [Const.ty] at hv
  | nullv b' n =>
    simp only [Const.comp, Const.isNull, if_true, ret_inj] at h
    simp only [Const.lanes, List.getElem?_replicate] at hs
    split at hs
    · injection hs with hs; subst h; exact hs
    · cases hs

theorem lanes_length {c : Const F} {n : Nat} (h : c.ty.vec = some n) : c.lanes.length = n := by
  cases c <;> simp [Const.ty] at h <;> simp [Const.lanes, h]

theorem lane_lt {c : Const F} {i : Nat} {s : SV F} (h : c.lanes[i]? = some s) : i < c.lanes.length := by
  rcases Nat.lt_or_ge i c.lanes.length with h' | h'
  · exact h'
  · rw [List.getElem?_eq_none h'] at h; cases h

theorem perform_cases {valid : F → Bool} {op : Op} {c1 c2 c : Const F}
    (h : perform valid op c1 c2 = .ret c) {i : Nat} {s t : SV F}
    (h1 : c1.lanes[i]? = some s) (h2 : c2.lanes[i]? = some t) :
    ∃ x y z : SC F, performS valid op c1.ty.base x y = .ret z ∧ c.lanes[i]? = some z.val ∧
      x.val = s ∧ (y.val = t ∨ c1.ty.vec ≠ none ∧ c2.comp c1.ty.base i = .ret y) := by
  unfold perform at h; split at h
  · rename_i n hn
    simp only [bind_ret, ret_inj] at h
    obtain ⟨cs, hcs, rfl⟩ := h
    have hi : i < n := by have := lane_lt h1; rw [lanes_length hn] at this; exact this
    obtain ⟨z, hz, hf⟩ := (each_ret hcs).2 i i (by simp [hi])
    simp only [bind_ret] at hf
    obtain ⟨x, hx, y, hy, hp⟩ := hf
    refine ⟨x, y, z, hp, by simp [Const.lanes, hz], comp_self hx (by simp [hn]) h1, ?_⟩
    exact .inr ⟨by simp [hn], hy⟩
  · split at h
    · simp only [bind_ret, ret_inj] at h
      obtain ⟨z, hz, rfl⟩ := h
      rcases i with _ | i
      · simp only [Const.lanes, List.getElem?_cons_zero, Option.some.injEq] at h1 h2
        exact ⟨_, _, z, hz, by simp [Const.lanes], h1, .inl h2⟩
      · simp [Const.lanes] at h1
    · cases h

theorem perform_f {valid : F → Bool} {op : Op} {c1 c2 c : Const F}
    (h : perform valid op c1 c2 = .ret c) {i : Nat} {x y : F}
    (h1 : c1.lanes[i]? = some (.f x)) (h2 : c2.lanes[i]? = some (.f y)) :
    ∃ z, c.lanes[i]? = some (.f z) ∧ FOp op x y z := by
  obtain ⟨a, b, e, hp, hl, ha, hb⟩ := perform_cases h h1 h2
  rcases performS_val hp with ⟨x', y', z, hx', hy', hz, hf⟩ | ⟨w, x', y', z, hx', hy', hz, hf⟩
  · have e1 : x' = x := by rw [ha] at hx'; injection hx' with hx'; exact hx'.symm
    have e2 : y' = y := by
      rcases hb with hb | ⟨_, hb⟩
      · rw [hb] at hy'; injection hy' with hy'; exact hy'.symm
      · exact comp_f hb h2 hy'
    subst e1; subst e2
    exact ⟨z, by rw [hl, hz], hf⟩
  · rw [ha] at hx'; cases hx'

theorem perform_i {valid : F → Bool} {op : Op} {c1 c2 c : Const F}
    (h : perform valid op c1 c2 = .ret c) {i w : Nat} {x y : BitVec w}
    (h1 : c1.lanes[i]? = some (.i w x)) (h2 : c2.lanes[i]? = some (.i w y)) :
    ∃ z, c.lanes[i]? = some (.i w z) ∧ IOp op x y z := by
  obtain ⟨a, b, e, hp, hl, ha, hb⟩ := perform_cases h h1 h2
  rcases performS_val hp with ⟨x', y', z, hx', hy', hz, hf⟩ | ⟨w', x', y', z, hx', hy', hz, hf⟩
  · rw [ha] at hx'; cases hx'
  · rw [ha] at hx'; cases hx'
    have e2 : y' = y := by
      rcases hb with hb | ⟨_, hb⟩
      · rw [hb] at hy'; cases hy'; rfl
      · exact comp_i hb h2 hy' rfl
    subst e2
    exact ⟨z, by rw [hl, hz], hf⟩

/-- The test of all pairs. -/
theorem dispatch_val {p : ∀ w, BitVec w → BitVec w → Bool} {x y : SC F} {r : Bool}
    (h : dispatch p x y = .ret r) : ∃ w, ∃ a b : BitVec w, x.val = .i w a ∧ y.val = .i w b ∧ r = p w a b := by
  unfold dispatch at h; split at h
  · simp only [bind_ret, must_ret, ret_inj] at h
    obtain ⟨_, _, a, ha, b, hb, rfl⟩ := h
    exact ⟨_, a, b, getI_val ha, getI_val hb, rfl⟩
  · cases h

theorem allPairs_i {p : ∀ w, BitVec w → BitVec w → Bool} {c1 c2 : Const F}
    (h : allPairs p c1 c2 = .ret true) {i w : Nat} {x y : BitVec w}
    (h1 : c1.lanes[i]? = some (.i w x)) (h2 : c2.lanes[i]? = some (.i w y)) : p w x y = true := by
  unfold allPairs at h; split at h
  · rename_i n hn
    simp only [bind_ret, ret_inj] at h
    obtain ⟨bs, hbs, hall⟩ := h
    have hi : i < n := by have := lane_lt h1; rw [lanes_length hn] at this; exact this
    obtain ⟨r, hr, hf⟩ := (each_ret hbs).2 i i (by simp [hi])
    simp only [bind_ret] at hf
    obtain ⟨a, ha, b, hb, hd⟩ := hf
    obtain ⟨w', u, v, hu, hv, rfl⟩ := dispatch_val hd
    have := comp_self ha (by simp [hn]) h1
    rw [hu] at this; cases this
    have := comp_i hb h2 hv rfl
    simp only at this; subst this
    have := List.all_eq_true.1 hall.symm _ (List.mem_of_getElem? hr)
    exact this
  · split at h
    · rcases i with _ | i
      · simp only [Const.lanes, List.getElem?_cons_zero, Option.some.injEq] at h1 h2
        obtain ⟨w', u, v, hu, hv, hp⟩ := dispatch_val h
        rw [h1] at hu; cases hu
        rw [h2] at hv; cases hv
        exact hp.symm
      · simp [Const.lanes] at h1
    · cases h

/-- Booleans. -/
theorem boolKind_val {c : SC F} {v u : Bool} (h : c.boolKind = some v) (hs : c.val = .b u) : u = v := by
  unfold SC.boolKind at h; split at h
  · injection h with h; subst h
    rename_i b; cases b <;> simp [SC.val] at hs; exact hs
  · injection h with h; subst h
    simp [SC.val] at hs; exact hs.symm
  · cases h

theorem Const.boolKind_b {c : Const F} {v u : Bool} (h : c.boolKind = some v) {i : Nat}
    (hs : c.lanes[i]? = some (.b u)) : u = v := by
  cases c with
  | sc c =>
    rcases i with _ | i <;> simp [Const.lanes] at hs
    exact boolKind_val h hs
  | nullv b n =>
    simp [Const.boolKind] at h
    simp only [Const.lanes, List.getElem?_replicate] at hs
    split at hs
    · cases b <;> simp [SC.val] at hs; rw [hs, h]
    · cases hs
  | vec b cs =>
    simp only [Const.lanes, List.getElem?_map, Option.map_eq_some_iff] at hs
    obtain ⟨a, ha, hv⟩ := hs
    cases cs with
    | nil => simp at ha
    | cons c cs =>
      simp only [Const.boolKind] at h
      split at h
      · cases h
      · rename_i v' hc
        split at h
        · injection h with h; subst h
          rename_i hall
          rcases i with _ | i
          · simp at ha; subst ha; exact boolKind_val hc hv
          · simp at ha
            simp only [List.all_eq_true, beq_iff_eq] at hall
            exact boolKind_val (hall a (List.mem_of_getElem? ha)) hv
        · cases h

theorem SC.floatKind_f {c : SC F} {x : F} (hs : c.val = .f x) :
    (c.floatKind = .zero → x = 0) ∧ (c.floatKind = .one → x = 1) := by
  unfold SC.floatKind; split
  · rename_i b; cases b <;> simp [SC.val] at hs; simp [hs]
  · rename_i w y
    simp [SC.val] at hs; subst hs
    split
    · simp [*]
    · split
      · simp
      · split <;> simp [*]
  · simp

theorem floatKind_f {c : Option (Const F)} {x : F} {i : Nat} {k : Const F} (hc : c = some k)
    (hs : k.lanes[i]? = some (.f x)) : (floatKind c = .zero → x = 0) ∧ (floatKind c = .one → x = 1) := by
  subst hc
  simp only [floatKind]
  split
  · cases k with
    | sc c =>
      rcases i with _ | i <;> simp [Const.lanes] at hs
      exact SC.floatKind_f hs
    | nullv b n =>
      simp only [Const.lanes, List.getElem?_replicate] at hs
      split at hs
      · cases b <;> simp [SC.val] at hs; simp [hs]
      · cases hs
    | vec b cs =>
      simp only [Const.lanes, List.getElem?_map, Option.map_eq_some_iff] at hs
      obtain ⟨a, ha, hv⟩ := hs
      cases cs with
      | nil => simp at ha
      | cons c cs =>
        simp only
        split
        · rename_i hall
          rcases i with _ | i
          · simp at ha; subst ha; exact SC.floatKind_f hv
          · simp at ha
            simp only [List.all_eq_true, beq_iff_eq] at hall
            rw [← hall a (List.mem_of_getElem? ha)]
            exact SC.floatKind_f hv
        · simp
  · simp

theorem isInt1_i {c : Const F} (h : c.isInt1 = true) {i w : Nat} {x : BitVec w}
    (hs : c.lanes[i]? = some (.i w x)) : x = 1#w := by
  have key : ∀ a : SC F, a.isInt1 = true → a.val = .i w x → x = 1#w := by
    intro a ha hv
    cases a <;> simp [SC.isInt1] at ha
    simp [SC.val] at hv
    obtain ⟨rfl, hv⟩ := hv
    simp at hv; rw [← hv, ha]
  cases c with
  | sc c =>
    rcases i with _ | i <;> simp [Const.lanes] at hs
    exact key c h hs
  | nullv b n => simp [Const.isInt1] at h
  | vec b cs =>
    simp only [Const.lanes, List.getElem?_map, Option.map_eq_some_iff] at hs
    obtain ⟨a, ha, hv⟩ := hs
    simp only [Const.isInt1, List.all_eq_true] at h
    exact key a (h a (List.mem_of_getElem? ha)) hv

theorem nullOf_lane {t : Ty} {i : Nat} (hi : i < t.n) :
    (nullOf (F := F) t).lanes[i]? = some (SC.null (F := F) t.base).val := by
  unfold nullOf; unfold Ty.n at hi
  cases hv : t.vec with
  | none => simp [hv] at hi; subst hi; simp [Const.lanes]
  | some n => simp [hv] at hi; simp [Const.lanes, hi]

/-- The constant and the other operand of a binary instruction. -/
theorem constInput_ret {env : Env F} {e : Inst} {c : Option (Const F)} {p q : Id}
    (he : e.args = [p, q]) (h : env.constInput e = .ret c) :
    c = (env.const p).or (env.const q) := by
  simp [Env.constInput, Env.constAt, Inst.arg, he, ret_inj] at h
  exact h.symm

theorem constAt_ret {env : Env F} {e : Inst} {c : Option (Const F)} {k : Nat}
    (h : env.constAt e k = .ret c) : ∃ x, e.args[k]? = some x ∧ c = env.const x := by
  simpa only [Env.constAt, Inst.arg, ret_inj, bind_ret, at?_ret] using h

theorem nonConst_ret {env : Env F} {e : Inst} {x p q : Id}
    (he : e.args = [p, q]) (h : env.nonConst e = .ret x) :
    x = if (env.const p).isSome then q else p := by
  simp only [Env.nonConst, Env.constAt, Inst.arg, he, bind_ret, at?_ret, ret_inj,
    List.getElem?_cons_zero, Option.some.injEq, exists_eq_left', exists_eq_left] at h
  split at h
  · rename_i hh; simp at h; rw [if_pos hh]; exact h.symm
  · rename_i hh; simp at h; rw [if_neg hh]; exact h.symm

theorem constPair {env : Env F} {e : Inst} {c : Const F} {x p q : Id} (he : e.args = [p, q])
    (h1 : env.constInput e = .ret (some c)) (h2 : env.nonConst e = .ret x) :
    (x = q ∧ env.const p = some c) ∨ (x = p ∧ env.const q = some c ∧ env.const p = none) := by
  have h1 := constInput_ret he h1
  have h2 := nonConst_ret he h2
  cases hp : env.const p with
  | none => simp [hp] at h1 h2; exact .inr ⟨h2, h1.symm, rfl⟩
  | some k => simp [hp] at h1 h2; exact .inl ⟨h2, by rw [h1]⟩

end Verif.Rules
