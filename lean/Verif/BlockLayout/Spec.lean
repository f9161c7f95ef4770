import Verif.BlockLayout.Model
/-!
# Specification: where the parts of a block lie

Independent of the validator: addresses are unbounded numbers.
-/
namespace Verif.BlockLayout

mutual
/-- The part of an object reached by a path of indices: its offset in bytes from the start of
the object, the matrix decorations that apply to it and its type.  A component of a matrix is
reached by column and row. -/
def sub (mc : MC) : Ty → List Nat → Option (Nat × MC × Ty)
  | .scalar b, p => if p = [] then some (0, mc, .scalar b) else none
  | .handle b a, p => if p = [] then some (0, mc, .handle b a) else none
  | .vector b n, p => match p with
    | [] => some (0, mc, .vector b n)
    | [i] => if i < n then some (i * b, mc, .scalar b) else none
    | _ => none
  | .matrix b r c, p => match p with
    | [] => some (0, mc, .matrix b r c)
    | [j, i] => if j < c ∧ i < r then
        some (if mc.colMajor then j * mc.stride + i * b else i * mc.stride + j * b, mc, .scalar b)
      else none
    | _ => none
  | .array n s el, p => match p with
    | [] => some (0, mc, .array n s el)
    | i :: p => if i < n.getD 0 then (sub mc el p).map fun x => (i * s.getD 0 + x.1, x.2) else none
  | .rtarray s el, p => match p with
    | [] => some (0, mc, .rtarray s el)
    | i :: p => (sub mc el p).map fun x => (i * s.getD 0 + x.1, x.2)
  | .struct infos tys, p => match p with
    | [] => some (0, mc, .struct infos tys)
    | i :: p => subs infos tys i p

/-- Parts of the member with the given index. -/
def subs : List Info → List Ty → Nat → List Nat → Option (Nat × MC × Ty)
  | i :: _, t :: _, 0, p => (sub i.mc t p).map fun x => (i.offset + x.1, x.2)
  | _ :: is, _ :: ts, k + 1, p => subs is ts k p
  | [], _, _, _ => none
  | _ :: _, [], _, _ => none
end

/-- The types that are read and written as a unit: scalars, pointers and descriptors, of
`n` bytes. -/
def Ty.Leaf (t : Ty) (n : Nat) : Prop := t = .scalar n ∨ ∃ a, t = .handle n a

mutual
/-- The bytes an object takes, without bound. -/
def extent (mc : MC) : Ty → Nat
  | .scalar b => b
  | .handle b _ => b
  | .vector b n => b * n
  | .matrix b r c => if mc.colMajor then c * mc.stride else (r - 1) * mc.stride + c * b
  | .array n s el => (n.getD 0 - 1) * s.getD 0 + extent mc el
  | .rtarray _ _ => 0
  | .struct infos tys => extents infos tys

/-- Where the last byte of the members is. -/
def extents : List Info → List Ty → Nat
  | i :: is, t :: ts => max (i.offset + extent i.mc t) (extents is ts)
  | [], _ => 0
  | _ :: _, [] => 0
end

/-- Widths of scalar types. -/
def Width (b : Nat) : Prop := b = 1 ∨ b = 2 ∨ b = 4 ∨ b = 8

mutual
/-- What other rules of the validator and of SPIR-V say about the types in a block: widths,
dimensions, powers of two as alignments; and the assumptions of the theorems: no part of the
block is larger than 2 GiB, lengths, strides and offsets are known, and there is no runtime
array. -/
def Fine (mc : MC) : Ty → Prop
  | .scalar b => Width b
  | .handle b a => b ≤ 2 ^ 31 ∧ ∃ k ≤ 30, a = 2 ^ k
  | .vector b n => Width b ∧ 1 ≤ n ∧ b * n ≤ 2 ^ 31
  | .matrix b r c => Width b ∧ (r = 2 ∨ r = 3 ∨ r = 4) ∧ (c = 2 ∨ c = 3 ∨ c = 4) ∧
      extent mc (.matrix b r c) ≤ 2 ^ 31
  | .array n s el => (∃ k, n = some k ∧ 1 ≤ k) ∧ (∃ k, s = some k ∧ k < unknown) ∧
      extent mc (.array n s el) ≤ 2 ^ 31 ∧ Fine mc el
  | .rtarray _ _ => False
  | .struct infos tys => infos.length = tys.length ∧ extents infos tys ≤ 2 ^ 31 ∧ Fines infos tys

/-- `Fine` for members. -/
def Fines : List Info → List Ty → Prop
  | i :: is, t :: ts => i.offset < unknown ∧ Fine i.mc t ∧ Fines is ts
  | [], _ => True
  | _ :: _, [] => True
end

/-- `Fine` for a member of a block, which may also be a runtime array. -/
def FineMember (i : Info) (t : Ty) : Prop :=
  match t with
  | .rtarray s el => (∃ k, s = some k ∧ k < unknown) ∧ Fine i.mc el
  | t => Fine i.mc t

/-- `Fine` for a block: a struct whose members may also be runtime arrays. -/
def FineBlock (infos : List Info) (tys : List Ty) : Prop :=
  infos.length = tys.length ∧ extents infos tys ≤ 2 ^ 31 ∧
    ∀ (k : Nat) (i : Info) (t : Ty), infos[k]? = some i → tys[k]? = some t → i.offset < unknown ∧ FineMember i t

/-- Vulkan, "Offset and Stride Assignment": in extended layouts the alignment of arrays,
matrices and structs is rounded up to a multiple of 16. -/
def round (mode : Mode) (a : Nat) : Nat := if mode = .extended then (a + 15) / 16 * 16 else a

/-- The alignment of a vector of `n` components of `b` bytes: that of the component in scalar
layouts, otherwise twice (two components) or four times (three or more) as much. -/
def vkVector (mode : Mode) (b n : Nat) : Nat :=
  if mode = .scalar then b else if n = 1 then b else if n = 2 then 2 * b else 4 * b

mutual
/-- Vulkan, "Alignment Requirements": scalar, base and extended alignment. -/
def vkAlign (mode : Mode) (mc : MC) : Ty → Nat
  | .scalar b => b
  | .handle _ a => a
  | .vector b n => vkVector mode b n
  /- an array of its columns or rows -/
  | .matrix b r c => round mode (vkVector mode b (if mc.colMajor then r else c))
  | .array _ _ el => round mode (vkAlign mode mc el)
  | .rtarray _ el => round mode (vkAlign mode mc el)
  /- the largest alignment of a member -/
  | .struct infos tys => if tys = [] then 1 else round mode (vkAligns mode infos tys)

def vkAligns (mode : Mode) : List Info → List Ty → Nat
  | i :: is, t :: ts => max (vkAlign mode i.mc t) (vkAligns mode is ts)
  | [], _ => 1
  | _ :: _, [] => 1
end

/-- Vulkan, "improper straddle": a vector of at most 16 bytes must not cross a multiple of
16, a larger one must begin at one. -/
def ImproperStraddle (a n : Nat) : Prop := if n ≤ 16 then a / 16 ≠ (a + n - 1) / 16 else a % 16 ≠ 0

/-- The end of a member at offset `o` that takes `n` bytes: in standard and extended layouts
nothing may lie in the padding behind arrays and structs. -/
def memberEnd (mode : Mode) (i : Info) (t : Ty) : Nat :=
  if mode ≠ .scalar ∧ isAggr t then
    (i.offset + extent i.mc t + vkAlign mode i.mc t - 1) / vkAlign mode i.mc t * vkAlign mode i.mc t
  else i.offset + extent i.mc t

/-- The rules for members: decorations, alignment, order. -/
def MemberRules (mode : Mode) (infos : List Info) (tys : List Ty) : Prop :=
  (∀ (k : Nat) (i : Info) (t : Ty), infos[k]? = some i → tys[k]? = some t →
    i.hasOffset = true ∧ (containsMatrix t = true → i.hasMatrix = true ∧ i.mc.stride ≠ 0) ∧
    vkAlign mode i.mc t ∣ i.offset) ∧
  (∀ (k k' : Nat) (i i' : Info) (t t' : Ty), infos[k]? = some i → tys[k]? = some t → infos[k']? = some i' →
    tys[k']? = some t' → k ≠ k' →
    (isRt t = false ∧ i.offset < i'.offset ∧ memberEnd mode i t ≤ i'.offset) ∨
    (isRt t' = false ∧ i'.offset < i.offset ∧ memberEnd mode i' t' ≤ i.offset))

mutual
/-- Vulkan, "Offset and Stride Assignment", without relaxed block layout, for members that
are not empty. -/
def Rules (mode : Mode) (mc : MC) : Ty → Prop
  | .scalar _ => True
  | .handle _ _ => True
  | .vector _ _ => True
  | .matrix b r c => vkAlign mode mc (.matrix b r c) ∣ mc.stride ∧ (if mc.colMajor then r else c) * b ≤ mc.stride
  | .array n s el => s.getD 0 ≠ 0 ∧ vkAlign mode mc (.array n s el) ∣ s.getD 0 ∧ extent mc el ≤ s.getD 0 ∧
      Rules mode mc el
  | .rtarray s el => s.getD 0 ≠ 0 ∧ vkAlign mode mc (.rtarray s el) ∣ s.getD 0 ∧ extent mc el ≤ s.getD 0 ∧
      Rules mode mc el
  | .struct infos tys => MemberRules mode infos tys ∧ RulesAll mode infos tys

def RulesAll (mode : Mode) : List Info → List Ty → Prop
  | i :: is, t :: ts => Rules mode i.mc t ∧ RulesAll mode is ts
  | [], _ => True
  | _ :: _, [] => True
end

mutual
/-- No struct without members, no descriptor of size 0. -/
def Solid : Ty → Prop
  | .scalar _ => True
  | .handle b _ => 0 < b
  | .vector _ _ => True
  | .matrix _ _ _ => True
  | .array _ _ el => Solid el
  | .rtarray _ el => Solid el
  | .struct _ tys => tys ≠ [] ∧ Solids tys

def Solids : List Ty → Prop
  | [] => True
  | t :: ts => Solid t ∧ Solids ts
end

/-- The part at `p` is a member of a struct. -/
def IsMember (mc : MC) (t : Ty) (p : List Nat) : Prop :=
  ∃ q k a mc' infos tys, p = q ++ [k] ∧ sub mc t q = some (a, mc', .struct infos tys)

end Verif.BlockLayout
