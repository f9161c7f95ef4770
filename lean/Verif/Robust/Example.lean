import Verif.Robust.Props

set_option linter.unusedSimpArgs false
set_option linter.unusedVariables false

/-!
# A module for the robust access pass, and modules for which it goes wrong
-/

namespace Verif.Robust

open Spec

/-- `struct { vec4; T[] }` -/
def block : Ty := .struct [.fixed 4 .scalar, .runtime .scalar]

/-- `%1` is a variable, `%3` its runtime array; `%10` is the constant 1, `%11` and `%12` are read at
run time. -/
def shader : Ctx where
  width := fun _ => 32
  signed := fun _ => true
  const := fun n => if n = 10 then some (.lit 1) else if n = 9 then some (.lit 0) else none
  pointee := fun p => if p = 1 ∨ p = 6 then block else if p = 3 then .runtime .scalar else .scalar
  int64 := false

def pointers : List PInst :=
  [⟨2, .chain 1 [.id 10, .id 11]⟩, ⟨3, .chain 1 [.id 10]⟩, ⟨6, .copy 1⟩, ⟨4, .chain 3 [.id 12]⟩,
    ⟨5, .chain 6 [.id 9, .id 12]⟩, ⟨7, .chain 6 [.id 10, .id 10]⟩]

/-- `%11` is -5, `%12` is 7, and the array has three elements. -/
def frame : Env where
  val := fun n => if n = 10 then 1 else if n = 11 then 4294967291 else if n = 12 then 7 else 0
  runtime := fun _ _ => 3

theorem typeAt_scalar {p : List Int} {x : Ty} (h : typeAt .scalar p = some x) : x = .scalar := by
  cases p <;> simp [typeAt] at h; exact h.symm

theorem typeAt_block {p : List Int} {x : Ty} (h : typeAt block p = some x) :
    p = [] ∧ x = block ∨ p = [0] ∧ x = .fixed 4 .scalar ∨ p = [1] ∧ x = .runtime .scalar ∨
      x = .scalar := by
  match p, h with
  | [], h => left; exact ⟨rfl, by simpa [typeAt] using h.symm⟩
  | i :: is, h =>
    simp only [block, typeAt] at h
    split at h
    · cases h
    · rename_i hn
      split at h
      · rename_i t ht
        have hlt : i.toNat < 2 := by
          rw [List.getElem?_eq_some_iff] at ht; exact ht.1
        have : i = 0 ∨ i = 1 := by omega
        rcases this with rfl | rfl
        · simp at ht; subst ht
          match is, h with
          | [], h => right; left; exact ⟨rfl, by simpa [typeAt] using h.symm⟩
          | j :: is, h => simp only [typeAt] at h; exact .inr (.inr (.inr (typeAt_scalar h)))
        · simp at ht; subst ht
          match is, h with
          | [], h => right; right; left; exact ⟨rfl, by simpa [typeAt] using h.symm⟩
          | j :: is, h => simp only [typeAt] at h; exact .inr (.inr (.inr (typeAt_scalar h)))
      · cases h

theorem valid_scalar (c e) : ValidType c e .scalar where
  fixed := fun p n t h => by have := typeAt_scalar h; cases this
  array := fun p n t h => by have := typeAt_scalar h; cases this
  struct := fun p ts h => by have := typeAt_scalar h; cases this
  runtime := fun p t h => by have := typeAt_scalar h; cases this

theorem valid_block (c e) : ValidType c e block where
  fixed := fun p n t h => by
    rcases typeAt_block h with h | h | h | h <;> simp [block] at h
    omega
  array := fun p n t h => by rcases typeAt_block h with h | h | h | h <;> simp [block] at h
  struct := fun p ts h => by
    rcases typeAt_block h with h | h | h | h <;> simp [block] at h
    simp [h]
  runtime := fun p t h => by
    rcases typeAt_block h with h | h | h | h <;> simp [block] at h
    exact ⟨[], [.fixed 4 .scalar, .runtime .scalar], by simp [h], by simp [typeAt, block]⟩

theorem shader_fits : Fits shader frame pointers where
  width := fun n => by simp [shader]
  bits := fun n => by simp only [shader, frame]; repeat' split
                      all_goals omega
  lit := fun n b h => by
    simp only [shader] at h
    split at h
    · cases h; simp [frame, *]
    split at h
    · cases h; simp [frame, *]
    · cases h
  ordered := by
    simp [Ordered, pointers, PInst.uses]
  typed := fun i hi => by
    simp only [pointers, List.mem_cons, List.not_mem_nil, or_false] at hi
    rcases hi with rfl | rfl | rfl | rfl | rfl | rfl <;>
      simp [WellTyped, shader, block, value, frame, V.signed, typeAt]
  types := fun p hp => by
    simp only [shader]
    split
    · exact valid_block _ _
    split
    · rename_i h3; subst h3
      exact absurd (hp ⟨3, .chain 1 [.id 10]⟩ (by simp [pointers]) rfl) (by simp)
    · exact valid_scalar _ _
  runtime := fun r p => by simp [frame]
  narrow := fun n b h hs => by simp [shader] at hs

theorem shader_supported : Supported shader frame pointers where
  width := fun n => by simp [shader]
  null := fun n => by
    simp only [shader]; repeat' split
    all_goals simp
  fixed := fun p q n t h => by
    simp only [shader] at h
    split at h
    · rcases typeAt_block h with h | h | h | h <;> simp [block] at h
      omega
    split at h
    · match q, h with
      | [], h => simp [typeAt] at h
      | _ :: _, h => simp only [typeAt] at h; have := typeAt_scalar h; cases this
    · have := typeAt_scalar h; cases this
  member := fun i hi base pre x post ts hd ht => by
    have hb : pre = [] ∧ (base = 1 ∨ base = 6) := by
      simp only [shader] at ht
      split at ht
      · rename_i hbase
        rcases typeAt_block ht with h | h | h | h <;> simp [block] at h
        exact ⟨by simpa using h.1, hbase⟩
      split at ht
      · match pre, ht with
        | [], ht => simp [typeAt] at ht
        | _ :: _, ht =>
          simp only [List.map_cons, typeAt] at ht; have := typeAt_scalar ht; cases this
      · have := typeAt_scalar ht; cases this
    obtain ⟨rfl, hb⟩ := hb
    simp only [pointers, List.mem_cons, List.not_mem_nil, or_false] at hi
    rcases hi with rfl | rfl | rfl | rfl | rfl | rfl <;>
      simp only [PDef.chain.injEq, List.nil_append, List.cons.injEq, reduceCtorEq] at hd
    · exact ⟨10, 1, hd.2.1.symm, by simp [shader]⟩
    · exact ⟨10, 1, hd.2.1.symm, by simp [shader]⟩
    · omega
    · exact ⟨9, 0, hd.2.1.symm, by simp [shader]⟩
    · exact ⟨10, 1, hd.2.1.symm, by simp [shader]⟩

/-- The hypotheses of the theorems are met. -/
example : Fits shader frame pointers ∧ Supported shader frame pointers ∧
    (∃ out, shader.run 20 pointers = .ok out) :=
  ⟨shader_fits, shader_supported, run_total shader_fits shader_supported (by decide)⟩

/-- Pointers before and after the pass. -/
def locs (c : Ctx) (e : Env) (is : List PInst) : Option (List Loc) :=
  (exec c e start is).map fun loc => is.map fun i => loc i.id

/-- -5 becomes 0 and 7 becomes 2 in the runtime array and 3 in the vector; the last pointer keeps
index 1. -/
example : locs shader frame pointers =
      some [⟨1, [1, -5]⟩, ⟨1, [1]⟩, ⟨1, []⟩, ⟨1, [1, 7]⟩, ⟨1, [0, 7]⟩, ⟨1, [1, 1]⟩] ∧
    (match shader.run 20 pointers with
      | .ok out => locs shader frame out
      | .error _ => none) =
      some [⟨1, [1, 0]⟩, ⟨1, [1]⟩, ⟨1, []⟩, ⟨1, [1, 2]⟩, ⟨1, [0, 3]⟩, ⟨1, [1, 1]⟩] := by
  decide

/-- An array of 300 elements (`%20`) and the 8 bit unsigned constant 200 (`%10`). -/
def narrowShader : Ctx where
  width := fun n => if n = 10 then 8 else 32
  signed := fun _ => false
  const := fun n => if n = 10 then some (.lit 200) else if n = 20 then some (.lit 300) else none
  pointee := fun p => if p = 1 then .array 20 .scalar else .scalar
  int64 := false

def narrowFrame : Env where
  val := fun n => if n = 10 then 200 else if n = 20 then 300 else 0
  runtime := fun _ _ => 1

/-- The index is left alone, but access chains treat it as -56. -/
theorem narrow_wrong : ∃ out loc, narrowShader.run 20 [⟨2, .chain 1 [.id 10]⟩] = .ok out ∧
    exec narrowShader narrowFrame start out = some loc ∧ loc 2 = ⟨1, [-56]⟩ ∧
    ¬ InBounds narrowShader narrowFrame (loc 2) := by
  refine ⟨[⟨2, .chain 1 [.id 10]⟩], _, rfl, rfl, by decide, ?_⟩
  have : setLoc start 2 ⟨1, [-56]⟩ 2 = ⟨1, [-56]⟩ := by decide
  simp [setLoc, InBounds, InBoundsFrom, narrowShader, narrowFrame, start, V.signed]

/-- If the runtime array is empty, then the index 7 is not clamped at all. -/
theorem empty_wrong : ∃ out loc, shader.run 20 pointers = .ok out ∧
    exec shader { frame with runtime := fun _ _ => 0 } start out = some loc ∧
    loc 4 = ⟨1, [1, 7]⟩ := by
  refine ⟨_, _, rfl, rfl, ?_⟩
  decide

/-- An index `OpConstantNull` for a vector. -/
def nullShader : Ctx :=
  { shader with const := fun n => if n = 10 then some .null else none,
                pointee := fun p => if p = 1 then .fixed 4 .scalar else .scalar }

/-- The pass uses a null pointer. -/
theorem null_wrong : nullShader.run 20 [⟨2, .chain 1 [.id 10]⟩] = .error .crash := rfl

end Verif.Robust
