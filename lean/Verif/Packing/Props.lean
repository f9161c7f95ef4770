import Verif.Packing.Lemmas
/-!
# C80: packing gives the offsets of the rules
-/
set_option linter.unusedSimpArgs false
set_option linter.unusedVariables false
namespace Verif.Packing
open Spec

/-! ### The rules -/

theorem total_ge {r : Rules} (hr : r ≠ .hlsl) (ts : List Ty) (e : Nat) (h : ∀ t ∈ ts, Good r t) :
    e ≤ total r ts e := by
  induction ts generalizing e with
  | nil => exact Nat.le_refl _
  | cons t ts ih =>
    simp only [total]
    have := ih (roundUp e (alignOf r t) + bytes r t) fun x hx => h x (by simp [hx])
    have := round_le (s := e) (align_eq hr t (h t (by simp))).2
    omega

/-- The offsets of the rules are in order, aligned and apart. -/
theorem layout_valid {r : Rules} (hr : r ≠ .hlsl) (ts : List Ty) (e : Nat)
    (h : ∀ t ∈ ts, Good r t) : Valid r ts (layout r ts e) e := by
  induction ts generalizing e with
  | nil => trivial
  | cons t ts ih =>
    exact ⟨round_le (align_eq hr t (h t (by simp))).2, round_dvd, ih _ fun x hx => h x (by simp [hx])⟩

theorem round_least {e a o : Nat} (ha : P a) (h : e ≤ o) (ho : o % a = 0) : roundUp e a ≤ o := by
  unfold roundUp
  rcases ha with rfl | rfl | rfl | rfl | rfl | rfl <;> omega

theorem layout_mono {r : Rules} (hr : r ≠ .hlsl) (ts : List Ty) (e : Nat) (os : List Nat)
    (h : ∀ t ∈ ts, Good r t) (hv : Valid r ts os e) (e' : Nat) (he : e' ≤ e) :
    ∀ k o o' : Nat, os[k]? = some o → (layout r ts e')[k]? = some o' → o' ≤ o := by
  induction ts generalizing e os e' with
  | nil => intro k o o' _ h2; simp [layout] at h2
  | cons t ts ih =>
    cases os with
    | nil => exact hv.elim
    | cons x os =>
      obtain ⟨h1, h2, h3⟩ := hv
      have hx : roundUp e' (alignOf r t) ≤ x :=
        round_least (align_eq hr t (h t (by simp))).2 (by omega) h2
      intro k o o' k1 k2
      cases k with
      | zero => simp [layout] at k1 k2; omega
      | succ k =>
        simp [layout] at k1 k2
        exact ih _ os (fun y hy => h y (by simp [hy])) h3 _ (by omega) k o o' k1 k2

/-- They are the lowest such offsets. -/
theorem layout_lowest {r : Rules} (hr : r ≠ .hlsl) (ts : List Ty) (os : List Nat)
    (h : ∀ t ∈ ts, Good r t) (hv : Valid r ts os 0) (k o o' : Nat) (h1 : os[k]? = some o)
    (h2 : (layout r ts 0)[k]? = some o') : o' ≤ o := layout_mono hr ts 0 os h hv 0 (by omega) k o o' h1 h2

/-- Members with valid offsets do not overlap. -/
theorem valid_apart {r : Rules} (ts : List Ty) (os : List Nat) (e : Nat) (hv : Valid r ts os e) :
    (∀ k o : Nat, os[k]? = some o → e ≤ o) ∧
    ∀ (i j : Nat) (t : Ty) (o o' : Nat), i < j → ts[i]? = some t → os[i]? = some o → os[j]? = some o' →
      o + bytes r t ≤ o' := by
  induction ts generalizing os e with
  | nil =>
    cases os with
    | nil => exact ⟨by simp, by simp⟩
    | cons x os => exact hv.elim
  | cons t ts ih =>
    cases os with
    | nil => exact hv.elim
    | cons x os =>
      obtain ⟨h1, h2, h3⟩ := hv
      obtain ⟨i1, i2⟩ := ih os _ h3
      refine ⟨?_, ?_⟩
      · intro k o hk
        cases k with
        | zero => simp at hk; omega
        | succ k => simp at hk; have := i1 k o hk; omega
      · intro i j s o o' hij k1 k2 k3
        cases j with
        | zero => omega
        | succ j =>
          simp at k3
          cases i with
          | zero =>
            simp at k1 k2
            subst k1 k2
            exact i1 j o' k3
          | succ i => simp at k1 k2; exact i2 i j s o o' (by omega) k1 k2 k3

/-! ### The pass -/

theorem step {r : Rules} (hr : r ≠ .hlsl) {t : Ty} (hg : Good r t) {cur pad : Nat} (hp : P pad)
    (hb : roundUp (roundUp cur pad) (alignOf r t) + bytes r t < 2 ^ 32) :
    memberAlign r t cur = alignOf r t ∧
    alignPow2 cur (max (alignOf r t) pad) = roundUp (roundUp cur pad) (alignOf r t) ∧
    w32 (roundUp (roundUp cur pad) (alignOf r t) + size r t) =
      roundUp (roundUp cur pad) (alignOf r t) + size r t ∧
    roundUp (roundUp (roundUp cur pad) (alignOf r t) + size r t) (padAlign t (alignOf r t)) =
      roundUp (roundUp cur pad) (alignOf r t) + bytes r t := by
  obtain ⟨h1, h2⟩ := align_eq hr t hg
  have ih := size_eq hr t hg (by omega)
  have hsz : size r t ≤ bytes r t := by rw [← ih]; exact round_le (pad_P h2)
  refine ⟨?_, ?_, Nat.mod_eq_of_lt (by omega), ?_⟩
  · unfold memberAlign
    rw [if_neg fun q => hr q.1, h1]
  · rw [alignPow2_eq (h2.max hp) (by rw [round_max h2 hp]; omega), round_max h2 hp]
  · have hd : roundUp (roundUp cur pad) (alignOf r t) % alignOf r t = 0 := round_dvd
    rw [round_add (pad_P h2) ?_, ih]
    unfold padAlign
    split
    · exact hd
    · omega

theorem assign_eq {r : Rules} (hr : r ≠ .hlsl) (ms : List Ty) (l : List (Nat × Nat)) (ts : List Ty)
    (prev cur pad : Nat) (hp : P pad) (hts : l.map (fun x => ms[x.1]?) = ts.map some)
    (hg : ∀ t ∈ ts, Good r t) (hmono : (prev :: l.map Prod.fst).Pairwise (· ≤ ·))
    (hb : total r ts (roundUp cur pad) < 2 ^ 32) :
    ((∀ x ∈ l.zip (layout r ts (roundUp cur pad)), x.2 ≤ x.1.2) →
      assign r ms l prev cur pad =
        .ok ((l.zip (layout r ts (roundUp cur pad))).map fun x => (x.1.1, x.2))) ∧
    ((∃ x ∈ l.zip (layout r ts (roundUp cur pad)), x.1.2 < x.2) →
      assign r ms l prev cur pad = .fail) := by
  induction l generalizing ts prev cur pad with
  | nil => simp [assign]
  | cons x l ih =>
    obtain ⟨i, old⟩ := x
    cases ts with
    | nil => simp at hts
    | cons t ts =>
      simp only [List.map_cons, List.cons.injEq] at hts
      obtain ⟨ht, hts⟩ := hts
      simp only [List.map_cons, List.pairwise_cons] at hmono
      have hlt : ¬ i < prev := by have := hmono.1 i (by simp); omega
      simp only [total] at hb
      have hge := total_ge hr ts (roundUp (roundUp cur pad) (alignOf r t) + bytes r t)
        fun y hy => hg y (by simp [hy])
      obtain ⟨s1, s2, s3, s4⟩ := step (cur := cur) hr (hg t (by simp)) hp (by omega)
      obtain ⟨j1, j2⟩ := ih ts i (roundUp (roundUp cur pad) (alignOf r t) + size r t)
        (padAlign t (alignOf r t)) (pad_P (align_eq hr t (hg t (by simp))).2) hts
        (fun y hy => hg y (by simp [hy])) (List.pairwise_cons.2 hmono.2) (by rw [s4]; exact hb)
      rw [s4] at j1 j2
      simp only [assign, if_neg hlt, ht, s1, s2, s3, layout, List.zip_cons_cons, List.mem_cons,
        forall_eq_or_imp, exists_eq_or_imp, List.map_cons]
      refine ⟨?_, ?_⟩
      · rintro ⟨h1, h2⟩
        rw [if_neg (by omega), j1 h2]
      · rintro (h1 | h2)
        · rw [if_pos h1]
        · split
          · rfl
          · rw [j2 h2]

theorem group_eq (l : List (Nat × Nat)) (rest : List Ann) (hrest : ∀ i o, rest.head? ≠ some (.offset i o)) :
    group (l.map (fun x => .offset x.1 x.2) ++ rest) = (l, rest) := by
  induction l with
  | nil =>
    cases rest with
    | nil => rfl
    | cons a rest =>
      cases a with
      | offset i o => exact absurd rfl (hrest i o)
      | other n => rfl
  | cons x l ih => simp [group, ih]

theorem pack_pre (r : Rules) (ms : List Ty) (pre : List Nat) (l : List Ann) :
    pack r ms (pre.map .other ++ l) = match pack r ms l with
      | .ok out => .ok (pre.map .other ++ out)
      | e => e := by
  induction pre with
  | nil => simp; cases pack r ms l <;> rfl
  | cons n pre ih =>
    simp only [List.map_cons, List.cons_append, pack, ih]
    cases pack r ms l <;> rfl

/-- With decorations of members in order, one after the other, the new offsets are those of the
rules, provided that none of them is larger than before; else the pass fails. Everything else
stays. -/
theorem packs {r : Rules} (hr : r ≠ .hlsl) (ms : List Ty) (pre : List Nat) (l : List (Nat × Nat))
    (rest : List Ann) (hl : l ≠ []) (hrest : ∀ i o, rest.head? ≠ some (.offset i o)) (ts : List Ty)
    (hts : l.map (fun x => ms[x.1]?) = ts.map some) (hg : ∀ t ∈ ts, Good r t)
    (hmono : (l.map Prod.fst).Pairwise (· ≤ ·)) (hb : total r ts 0 < 2 ^ 32) :
    ((∀ x ∈ l.zip (layout r ts 0), x.2 ≤ x.1.2) →
      pack r ms (pre.map .other ++ (l.map (fun x => .offset x.1 x.2) ++ rest)) =
        .ok (pre.map .other ++ ((l.zip (layout r ts 0)).map (fun x => .offset x.1.1 x.2) ++ rest))) ∧
    ((∃ x ∈ l.zip (layout r ts 0), x.1.2 < x.2) →
      pack r ms (pre.map .other ++ (l.map (fun x => .offset x.1 x.2) ++ rest)) = .fail) := by
  cases l with
  | nil => exact absurd rfl hl
  | cons x l =>
    obtain ⟨i, o⟩ := x
    obtain ⟨h1, h2⟩ := assign_eq hr ms ((i, o) :: l) ts 0 0 1 (Or.inl rfl) hts hg
      (List.pairwise_cons.2 ⟨fun _ _ => Nat.zero_le _, hmono⟩) hb
    have e0 : roundUp 0 1 = 0 := rfl
    rw [e0] at h1 h2
    refine ⟨fun h => ?_, fun h => ?_⟩
    · rw [pack_pre]
      simp only [List.map_cons, List.cons_append, pack, group_eq l rest hrest]
      rw [h1 h]
      simp [List.map_map, Function.comp_def]
    · rw [pack_pre]
      simp only [List.map_cons, List.cons_append, pack, group_eq l rest hrest]
      rw [h2 h]

/-- Under all rules, with all types: members keep their places in the list, no offset is raised. -/
theorem never_raised (r : Rules) (ms : List Ty) (l : List (Nat × Nat)) (prev cur pad : Nat)
    (out : List (Nat × Nat)) (h : assign r ms l prev cur pad = .ok out) :
    out.map Prod.fst = l.map Prod.fst ∧ (∀ x ∈ l.zip out, x.2.2 ≤ x.1.2) ∧
      (l.map Prod.fst).Pairwise (· ≤ ·) ∧ ∀ x ∈ l, prev ≤ x.1 ∧ x.1 < ms.length := by
  induction l generalizing prev cur pad out with
  | nil => simp [assign] at h; subst h; simp
  | cons x l ih =>
    obtain ⟨i, old⟩ := x
    simp only [assign] at h
    split at h
    · cases h
    · rename_i hlt
      split at h
      · cases h
      · rename_i t ht
        split at h
        · cases h
        · rename_i hold
          split at h
          · rename_i out' ho
            cases h
            obtain ⟨h1, h2, h3, h4⟩ := ih _ _ _ _ ho
            refine ⟨by simp [h1], ?_, ?_, ?_⟩
            · simp only [List.zip_cons_cons, List.mem_cons, forall_eq_or_imp]
              exact ⟨by simp at hold ⊢; exact hold, h2⟩
            · refine List.pairwise_cons.2 ⟨?_, h3⟩
              intro b hb
              obtain ⟨y, hy, rfl⟩ := List.mem_map.1 hb
              exact (h4 y hy).1
            · simp only [List.mem_cons, forall_eq_or_imp]
              refine ⟨⟨by omega, (List.getElem?_eq_some_iff.1 ht).1⟩, fun y hy => ?_⟩
              have := h4 y hy
              omega
          · rename_i hno
            cases hq : assign r ms l i (w32 (alignPow2 cur (max (memberAlign r t cur) pad) + size r t))
              (padAlign t (memberAlign r t cur)) <;> simp_all

theorem flat_step {t : Ty} (ht : Flat t) {cur : Nat} (hc : cur + 48 ≤ 2 ^ 32) :
    cur ≤ alignPow2 cur (max (memberAlign .hlsl t cur) 1) ∧
    alignPow2 cur (max (memberAlign .hlsl t cur) 1) % 4 = 0 ∧
    alignPow2 cur (max (memberAlign .hlsl t cur) 1) / 16 =
      (alignPow2 cur (max (memberAlign .hlsl t cur) 1) + flatBytes t - 1) / 16 ∧
    size .hlsl t = flatBytes t ∧ flatBytes t ≤ 16 ∧ ∀ a, padAlign t a = 1 := by
  have key : ∀ a, P a → a ≤ 16 → alignPow2 cur a = roundUp cur a := fun a ha h => by
    refine alignPow2_eq ha ?_
    unfold roundUp
    rcases ha with rfl | rfl | rfl | rfl | rfl | rfl <;> omega
  have k4 := key 4 (by simp [P]) (by omega)
  have k8 := key 8 (by simp [P]) (by omega)
  have k16 := key 16 (by simp [P]) (by omega)
  unfold roundUp at k4 k8 k16
  have m1 : max 4 1 = 4 := rfl
  have m2 : max 8 1 = 8 := rfl
  have m3 : max 16 1 = 16 := rfl
  have m4 : max 4 16 = 16 := rfl
  have m5 : max 8 16 = 16 := rfl
  have m6 : max 16 16 = 16 := rfl
  rcases ht with rfl | rfl | rfl | rfl
  · have a : align .hlsl (.scalar 4) = 4 := by decide
    have b : size .hlsl (.scalar 4) = 4 := by decide
    refine ⟨?_, ?_, ?_, rfl, by decide, fun _ => rfl⟩ <;>
      simp only [memberAlign, a, b, flatBytes, sub32, w32] <;> split <;>
      simp only [m1, m2, m3, m4, m5, m6, k4, k8, k16] <;> simp at * <;> omega
  · have a : align .hlsl (.vec 4 2) = 8 := by decide
    have b : size .hlsl (.vec 4 2) = 8 := by decide
    refine ⟨?_, ?_, ?_, rfl, by decide, fun _ => rfl⟩ <;>
      simp only [memberAlign, a, b, flatBytes, sub32, w32] <;> split <;>
      simp only [m1, m2, m3, m4, m5, m6, k4, k8, k16] <;> simp at * <;> omega
  · have a : align .hlsl (.vec 4 3) = 16 := by decide
    have b : size .hlsl (.vec 4 3) = 12 := by decide
    refine ⟨?_, ?_, ?_, rfl, by decide, fun _ => rfl⟩ <;>
      simp only [memberAlign, a, b, flatBytes, sub32, w32] <;> split <;>
      simp only [m1, m2, m3, m4, m5, m6, k4, k8, k16] <;> simp at * <;> omega
  · have a : align .hlsl (.vec 4 4) = 16 := by decide
    have b : size .hlsl (.vec 4 4) = 16 := by decide
    refine ⟨?_, ?_, ?_, rfl, by decide, fun _ => rfl⟩ <;>
      simp only [memberAlign, a, b, flatBytes, sub32, w32] <;> split <;>
      simp only [m1, m2, m3, m4, m5, m6, k4, k8, k16] <;> simp at * <;> omega

/-- HLSL rules with scalars and vectors of 32-bit components: members are in order, do not overlap
and do not cross a row of 16 bytes. -/
theorem hlsl_rows (ms : List Ty) (l : List (Nat × Nat)) (ts : List Ty) (prev cur : Nat)
    (hts : l.map (fun x => ms[x.1]?) = ts.map some) (hf : ∀ t ∈ ts, Flat t)
    (hold : ∀ x ∈ l, x.2 + 64 ≤ 2 ^ 32) (hc : cur + 48 ≤ 2 ^ 32) (out : List (Nat × Nat))
    (h : assign .hlsl ms l prev cur 1 = .ok out) : Rows ts (out.map Prod.snd) cur := by
  induction l generalizing ts prev cur out with
  | nil =>
    cases ts with
    | nil => simp [assign] at h; subst h; trivial
    | cons t ts => simp at hts
  | cons x l ih =>
    obtain ⟨i, old⟩ := x
    cases ts with
    | nil => simp at hts
    | cons t ts =>
      simp only [List.map_cons, List.cons.injEq] at hts
      obtain ⟨ht, hts⟩ := hts
      obtain ⟨f1, f2, f3, f4, f5, f6⟩ := flat_step (hf t (by simp)) hc
      have ho := hold (i, old) (by simp)
      simp only [assign, ht, f4, f6] at h
      generalize alignPow2 cur (max (memberAlign .hlsl t cur) 1) = off at *
      split at h
      · cases h
      · split at h
        · cases h
        · rename_i hle
          have hw : w32 (off + flatBytes t) = off + flatBytes t :=
            Nat.mod_eq_of_lt (by simp only at ho; omega)
          rw [hw] at h
          split at h
          · rename_i out' ho'
            cases h
            exact ⟨f1, f2, f3, ih ts i _ hts (fun y hy => hf y (by simp [hy]))
              (fun y hy => hold y (by simp [hy])) (by simp only at ho; omega) out' ho'⟩
          · rename_i hno
            exact absurd h (hno out)

/-- float2, float3, float, float2, float2, float. -/
example : assign .hlsl [.vec 4 2, .vec 4 3, .scalar 4, .vec 4 2, .vec 4 2, .scalar 4]
    [(0, 0), (1, 16), (2, 32), (3, 48), (4, 64), (5, 80)] 0 0 1 =
    .ok [(0, 0), (1, 16), (2, 28), (3, 32), (4, 40), (5, 48)] := by decide

/-- HLSL rules, all types: a member that would cross a row begins a row. -/
theorem hlsl_crossing (t : Ty) (ha : P (align .hlsl t)) {cur pad : Nat} (hp : P pad)
    (hc : cur + size .hlsl t + 64 ≤ 2 ^ 32) (hs : 0 < size .hlsl t)
    (hx : cur / 16 ≠ (cur + size .hlsl t - 1) / 16) :
    alignPow2 cur (max (memberAlign .hlsl t cur) pad) % 16 = 0 := by
  have hsub : sub32 (w32 (cur + size .hlsl t)) 1 = cur + size .hlsl t - 1 := by
    unfold sub32 w32; omega
  have hm : memberAlign .hlsl t cur = max (align .hlsl t) 16 := by
    unfold memberAlign
    rw [hsub, if_pos ⟨rfl, hx⟩]
  have hP : P (max (max (align .hlsl t) 16) pad) := (ha.max (by simp [P])).max hp
  rw [hm]
  have h16 : 16 ≤ max (max (align .hlsl t) 16) pad := by omega
  generalize max (max (align .hlsl t) 16) pad = a at *
  have hr : roundUp cur a < 2 ^ 32 := by
    unfold roundUp
    rcases hP with rfl | rfl | rfl | rfl | rfl | rfl <;> omega
  rw [alignPow2_eq hP hr]
  unfold roundUp
  rcases hP with rfl | rfl | rfl | rfl | rfl | rfl <;> omega

/-- A matrix of 16-bit floats after a float. -/
example : alignPow2 4 (max (memberAlign .hlsl (.mat 2 4 4) 4) 1) % 16 = 0 :=
  hlsl_crossing (.mat 2 4 4) (Or.inr (Or.inr (Or.inr (Or.inl (by decide))))) (Or.inl rfl) (by decide) (by decide) (by decide)

/-! ### Examples -/

/-- vec3, float, an array of three vec2, a structure of mat4 and double, a float. -/
def sample : List Ty :=
  [.vec 4 3, .scalar 4, .arr (.vec 4 2) 3, .struct (.cons (.mat 4 4 4) (.cons (.scalar 8) .nil)), .scalar 4]

example : layout .std140 sample 0 = [0, 12, 16, 64, 144] ∧
    layout .std430 sample 0 = [0, 12, 16, 48, 128] := by decide

theorem sample_good : (∀ t ∈ sample, Good .std140 t) ∧ ∀ t ∈ sample, Good .std430 t := by
  simp [sample, Good, Goods]

example : pack .std140 sample ([1].map .other ++
      ([(0, 0), (1, 16), (2, 32), (3, 96), (4, 256)].map (fun x => .offset x.1 x.2) ++ [.other 2])) =
    .ok [.other 1, .offset 0 0, .offset 1 12, .offset 2 16, .offset 3 64, .offset 4 144, .other 2] :=
  (packs (by decide) sample [1] [(0, 0), (1, 16), (2, 32), (3, 96), (4, 256)] [.other 2] (by simp)
    (by simp) sample rfl sample_good.1 (by decide) (by decide)).1 (by decide)

/-! ### Findings -/

/-- Scalar layout: a matrix of four columns of four floats is taken for a single column, so that the
next member comes to lie within the matrix (64 bytes). -/
theorem scalar_matrix_overlap : pack .scalar [.mat 4 4 4, .scalar 4] [.offset 0 0, .offset 1 64] =
    .ok [.offset 0 0, .offset 1 16] := by decide

/-- Column-major matrices are taken for row-major ones. With std140 four columns of two floats take
64 bytes, with std430 two columns of three floats take 28 bytes at least: the next members lie
within. -/
theorem column_major_overlap :
    pack .std140 [.mat 4 4 2, .scalar 4] [.offset 0 0, .offset 1 64] = .ok [.offset 0 0, .offset 1 32] ∧
    pack .std430 [.mat 4 2 3, .scalar 4] [.offset 0 0, .offset 1 32] = .ok [.offset 0 0, .offset 1 24] := by
  decide

/-- With std140 matrices of 16-bit floats are aligned to 8 bytes instead of 16, and have rows of
8 bytes. -/
theorem half_matrix_wrong : align .std140 (.mat 2 4 4) = 8 ∧ alignOf .std140 (.mat 2 4 4) = 16 ∧
    size .std140 (.mat 2 4 4) = 32 ∧ bytes .std140 (.mat 2 4 4) = 64 := by decide

/-- HLSL rules: the size of an array of one double wraps around, and a member that follows makes the
pass fail for every offset it could have. -/
theorem hlsl_double_fails (o : Nat) (h : o < 2 ^ 32 - 8) :
    pack .hlsl [.arr (.scalar 8) 1, .scalar 4] [.offset 0 0, .offset 1 o] = .fail := by
  have s1 : size .hlsl (.arr (.scalar 8) 1) = 4294967288 := by decide
  have a1 : memberAlign .hlsl (.arr (.scalar 8) 1) 0 = 16 := by decide
  have a2 : memberAlign .hlsl (.scalar 4) 4294967288 = 4 := by decide
  have o1 : alignPow2 0 (max 16 1) = 0 := by decide
  have o2 : alignPow2 4294967288 (max 4 1) = 4294967288 := by decide
  have w : w32 (0 + 4294967288) = 4294967288 := by decide
  simp only [pack, group, assign, List.getElem?_cons_zero, List.getElem?_cons_succ, a1, o1, s1, w,
    padAlign, a2, o2]
  rw [if_neg (by decide), if_neg (by decide), if_neg (by decide), if_pos (by omega)]

/-- Another decoration between offsets ends the packing: member 1 stays where it was, although the
pass reports success. -/
theorem interleaved_missed :
    pack .std430 [.scalar 4, .scalar 4] [.offset 0 0, .other 0, .offset 1 16] =
      .ok [.offset 0 0, .other 0, .offset 1 16] ∧
    pack .std430 [.scalar 4, .scalar 4] [.offset 0 0, .offset 1 16] =
      .ok [.offset 0 0, .offset 1 4] := by decide

/-- An offset for a member that does not exist is read from outside of the array of members. -/
theorem bad_member : pack .std430 [.scalar 4] [.offset 1 0] = .undef := by decide

end Verif.Packing
