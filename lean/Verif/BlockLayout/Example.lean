import Verif.BlockLayout.Props
/-! # Examples, and blocks for which the claims fail -/
set_option maxRecDepth 20000
namespace Verif.BlockLayout

/-! ## A block that meets the assumptions -/

/-- ```
struct L { vec3 position; float radius; };            // offsets 0, 12
layout(std140) uniform { mat3x4 m (row major); L lights[5]; vec2 v; }   // offsets 0, 64, 224
``` -/
def exL : Ty := .struct [{ offset := 0 }, { offset := 12 }] [.vector 4 3, .scalar 4]
def exInfos : List Info :=
  [{ offset := 0, hasMatrix := true, mc := ⟨16, false⟩ }, { offset := 64 }, { offset := 224 }]
def exTys : List Ty := [.matrix 4 4 3, .array (some 5) (some 32) exL, .vector 4 2]

theorem width4 : Width 4 := .inr (.inr (.inl rfl))

theorem ex_fine : Fine {} (.struct exInfos exTys) := by
  simp [Fine, Fines, exInfos, exTys, exL, extents, extent, unknown, width4]

example : check .extended false {} 0 (.struct exInfos exTys) = true := by decide +kernel
example : check .extended true {} 0 (.struct exInfos exTys) = true := by decide +kernel

/-- `lights[3].radius` lies at 64 + 3 * 32 + 12. -/
example : sub {} (.struct exInfos exTys) [1, 3, 1] = some (172, {}, .scalar 4) := by
  simp [sub, subs, exInfos, exTys, exL]

example : 172 + 4 ≤ 96 ∨ 96 + 4 ≤ 172 :=
  accepted_no_overlap_partial (mode := .extended) (relaxed := false) (mc := {}) (inc := 0) (fineBlock_of_fine ex_fine)
    (by decide +kernel) (p := [1, 3, 1]) (p' := [1, 1, 0, 0]) (m := {}) (m' := {})
    (by simp [sub, subs, exInfos, exTys, exL]) (.inl rfl) (by simp [sub, subs, exInfos, exTys, exL]) (.inl rfl) (by decide)

example : Rules .extended {} (.struct exInfos exTys) :=
  (accepted_iff_rules_partial (fineBlock_of_fine ex_fine) (by simp [exTys, Solid, Solids, exL])).1 (by decide +kernel)

/-- A member moved by four bytes is refused; so is a stride that is too small. -/
example : check .extended false {} 0 (.struct [{ offset := 0 }, { offset := 12 }] [.vector 4 3, .vector 4 2]) = false := by
  decide +kernel
example : check .standard false {} 0 (.struct [{ offset := 0 }] [.array (some 5) (some 8) (.vector 4 4)]) = false := by
  decide +kernel

/-- A block that ends with a runtime array. -/
def rtInfos : List Info := [{ offset := 0 }, { offset := 16 }]
def rtTys : List Ty := [.scalar 4, .rtarray (some 16) (.vector 4 3)]

theorem rt_ok : FineBlock rtInfos rtTys := by
  refine ⟨rfl, by simp [rtInfos, rtTys, extents, extent], ?_⟩
  intro k i t hi ht
  match k with
  | 0 => simp [rtInfos, rtTys] at hi ht; subst hi; subst ht; exact ⟨by decide, by simp [FineMember, Fine, width4]⟩
  | 1 =>
    simp [rtInfos, rtTys] at hi ht; subst hi; subst ht
    exact ⟨by decide, by simp [FineMember, Fine, width4, unknown]⟩
  | k + 2 => simp [rtInfos] at hi

example : check .standard false {} 0 (.struct rtInfos rtTys) = true := by decide +kernel
example : vkAlign .standard {} (.vector 4 3) ∣ 16 + 1000000000000 * 16 :=
  accepted_aligned_partial (mc := {}) (inc := 0) rt_ok (by decide +kernel) (p := [1, 1000000000000])
    (m := {}) (by simp [sub, subs, rtInfos, rtTys])

/-! ## Findings -/

/-- Exception: sizes are computed modulo 2^32.  `float a[2^28 + 1]` with stride 16 gets the
size 4, and a member at offset 16, which is where `a[1]` lies, is accepted. -/
theorem overflow_overlap :
    check .standard false {} 0
      (.struct [{ offset := 0 }, { offset := 16 }] [.array (some (2 ^ 28 + 1)) (some 16) (.scalar 4), .scalar 4]) = true ∧
    sub {} (.struct [{ offset := 0 }, { offset := 16 }] [.array (some (2 ^ 28 + 1)) (some 16) (.scalar 4), .scalar 4])
      [0, 1] = some (16, {}, .scalar 4) ∧
    sub {} (.struct [{ offset := 0 }, { offset := 16 }] [.array (some (2 ^ 28 + 1)) (some 16) (.scalar 4), .scalar 4])
      [1] = some (16, {}, .scalar 4) := by
  refine ⟨by decide +kernel, ?_, ?_⟩ <;> simp [sub, subs]

/-- The block with an array of `n` floats at offset 0 and a float at the same offset. -/
def specBlock (n : Option Nat) : Ty :=
  .struct [{ offset := 0 }, { offset := 0 }] [.array n (some 4) (.scalar 4), .scalar 4]

/-- Exception: an array whose length is a specialisation constant counts as empty.  The
member behind it may have the same offset, although the two overlap for all lengths. -/
theorem spec_length_overlap : check .standard false {} 0 (specBlock none) = true ∧
    ∀ n, 1 ≤ n → sub {} (specBlock (some n)) [0, 0] = some (0, {}, .scalar 4) ∧
      sub {} (specBlock (some n)) [1] = some (0, {}, .scalar 4) := by
  refine ⟨by decide +kernel, fun n hn => ⟨?_, ?_⟩⟩
  · simp [sub, subs, specBlock]; omega
  · simp [sub, subs, specBlock]

/-- With the length known the block is refused. -/
example : check .standard false {} 0 (specBlock (some 1)) = false := by decide +kernel

/-- Exception: with relaxed block layout only element 0 of a runtime array is looked at.
`struct { vec2 v; float f; } a[]` with stride 12 is accepted, and the vector of element 1
straddles. -/
theorem runtime_straddle :
    check .standard true {} 0
      (.struct [{ offset := 0 }] [.rtarray (some 12) (.struct [{ offset := 0 }, { offset := 8 }] [.vector 4 2, .scalar 4])])
      = true ∧
    sub {} (.struct [{ offset := 0 }]
      [.rtarray (some 12) (.struct [{ offset := 0 }, { offset := 8 }] [.vector 4 2, .scalar 4])]) [0, 1, 0] =
      some (12, {}, .vector 4 2) ∧ ImproperStraddle 12 (4 * 2) := by
  refine ⟨by decide +kernel, by simp [sub, subs], by simp [ImproperStraddle]⟩

/-- With the length known the block is refused. -/
example : check .standard true {} 0
    (.struct [{ offset := 0 }]
      [.array (some 2) (some 12) (.struct [{ offset := 0 }, { offset := 8 }] [.vector 4 2, .scalar 4])]) = false := by
  decide +kernel

/-- Exception: with relaxed block layout a struct is aligned as its vectors are, although
Vulkan relaxes only vectors: a struct that holds a `vec2` is accepted at offset 4. -/
theorem relaxed_struct_misaligned :
    check .standard true {} 0 (.struct [{ offset := 4 }] [.struct [{ offset := 0 }] [.vector 4 2]]) = true ∧
    sub {} (.struct [{ offset := 4 }] [.struct [{ offset := 0 }] [.vector 4 2]]) [0] =
      some (4, {}, .struct [{ offset := 0 }] [.vector 4 2]) ∧
    ¬ vkAlign .standard {} (.struct [{ offset := 0 }] [.vector 4 2]) ∣ 4 := by
  refine ⟨by decide +kernel, by simp [sub, subs], ?_⟩
  simp [vkAlign, vkAligns, vkVector, round]

/-- Exception: the literal stride 2^32 - 1 is taken for one that is not known. -/
theorem marker_stride :
    check .standard false {} 0 (.struct [{ offset := 0 }] [.array (some 2) (some (2 ^ 32 - 1)) (.scalar 4)]) = true ∧
    sub {} (.struct [{ offset := 0 }] [.array (some 2) (some (2 ^ 32 - 1)) (.scalar 4)]) [0, 1] =
      some (2 ^ 32 - 1, {}, .scalar 4) ∧ ¬ 4 ∣ 2 ^ 32 - 1 := by
  refine ⟨by decide +kernel, by simp [sub, subs], by decide⟩

/-- Members of size 0 make the result depend on the order of declaration. -/
theorem empty_order :
    check .standard false {} 0 (.struct [{ offset := 0 }, { offset := 0 }] [.struct [] [], .scalar 4]) = true ∧
    check .standard false {} 0 (.struct [{ offset := 0 }, { offset := 0 }] [.scalar 4, .struct [] []]) = false := by
  constructor <;> decide +kernel

end Verif.BlockLayout
