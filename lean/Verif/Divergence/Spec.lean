import Verif.Divergence.Model
/-!
# What divergence means, and what a function looks like
-/
namespace Verif.Divergence.Spec
open Verif.ControlDep

/-- The flows of divergence (source/lint/divergence_analysis.h:85-91): an instruction that brings
it in, an operand, a block in which a branch is, the condition of a branch (which divides the
group for good where control has come together in between). -/
inductive Flows (f : Fn) : Nat → Nat → Prop where
  | param {i} : f.kind i = .param → Flows f i 2
  | unknown {i} : f.kind i = .load none → Flows f i 2
  | load {i v} : f.kind i = .load (some v) → Flows f i (varLevel v)
  | operand {i ins v l} : f.kind i = .op ins → v ∈ ins → Flows f v l → Flows f i l
  | control {b d s l} : f.kind b = .label → d ∈ f.cdg.rev.get (some b) → d.source = some s →
      Flows f s l → Flows f b l
  | branch {b d s l} : f.kind b = .label → d ∈ f.cdg.rev.get (some b) → d.source = some s →
      Flows f (f.cond s) l → Flows f b (promote f d l)

/-- What a variable holds for the invocations of a group: values of their own or of others that
write at the same time; the same value within a primitive; the same value for all. -/
inductive Varies : Var → Nat → Prop where
  /-- each invocation has its own, or others may write -/
  | own {v} : v.storage ∈ [.function, .private_, .output, .workgroup, .storageBuffer,
      .physicalStorageBuffer, .atomicCounter, .generic, .image] → Varies v 2
  | interpolated {v} : v.storage = .input → v.flat = false → Varies v 2
  | flat {v} : v.storage = .input → v.flat = true → Varies v 1
  | written {v} : v.storage = .uniformConstant → v.storageImage = true → v.readOnly = false →
      Varies v 2
  | constant {v} : v.storage = .uniformConstant → (v.storageImage = true → v.readOnly = true) →
      Varies v 0
  | shared {v} : v.storage ∈ [.uniform, .pushConstant, .crossWorkgroup, .other] → Varies v 0

/-- A function as the analysis finds it: `all` has the instructions of its blocks, and the
instructions that use their results. -/
structure Ok (f : Fn) (all : List Nat) : Prop where
  init : ∀ i ∈ f.init, i ∈ all
  users : ∀ i ∈ all, ∀ j ∈ f.users i, j ∈ all
  phis : ∀ i ∈ all, ∀ j ∈ f.phis i, j ∈ all
  target : ∀ b d, d ∈ f.cdg.fwd.get (some b) → f.kind d.target = .label ∧ d.target ∈ all
  /-- the def-use manager knows the users of values -/
  uses : ∀ i ∈ all, ∀ ins, f.kind i = .op ins → ∀ v ∈ ins, f.kind v ≠ .label → i ∈ f.users v
  /-- both directions of the dependence graph agree (C76) -/
  same : ∀ b d s, d ∈ f.cdg.rev.get (some b) → d.source = some s →
    d.target = b ∧ d ∈ f.cdg.fwd.get (some s)
  /-- a block others depend on ends in a branch on its condition, a value -/
  branch : ∀ b d s, d ∈ f.cdg.rev.get (some b) → d.source = some s →
    f.kind s = .label ∧ f.kind (f.cond s) ≠ .label ∧ (∀ c, f.kind (f.cond s) ≠ .term c) ∧
      ∃ t ∈ f.users (f.cond s), f.kind t = .term s

/-- What the analysis does achieve for an instruction: operands that are values, the level of the
branching block, and the condition of a branch in a block without divergence. -/
def Settled (f : Fn) (x : Nat → Nat) (i : Nat) : Prop :=
  match f.kind i with
  | .param => x i = 2
  | .load none => x i = 2
  | .load (some v) => x i = varLevel v
  | .op ins => ∀ v ∈ ins, f.kind v ≠ .label → x v ≤ x i
  | .label => ∀ d ∈ f.cdg.rev.get (some i), ∀ s, d.source = some s → f.cdg.hasBlock (some i) →
      x s ≤ x i ∧ (x s = 0 → promote f d (x (f.cond s)) ≤ x i)
  | _ => True

end Verif.Divergence.Spec
