import Verif.Bindings.Model
/-!
# What resolving conflicts of bindings is for
-/
namespace Verif.Bindings.Spec

/-- `g` is called by `f`, directly or not, or is `f`. -/
inductive Reaches (calls : Nat → List Nat) : Nat → Nat → Prop where
  | refl {f} : Reaches calls f f
  | call {f g h} : g ∈ calls f → Reaches calls g h → Reaches calls f h

/-- The call tree of an entry point uses the resource. -/
def UsedBy (m : Mod) (e : Nat) (v : Var) : Prop :=
  v ∈ m.vars ∧ ∃ f, Reaches m.calls e f ∧ some f ∈ m.users v.id

/-- The type of a sampler, of an array of samplers or of a pointer to such. -/
inductive SamplerTy : Ty → Prop where
  | sampler : SamplerTy (.base 26)
  | pointer {t} : SamplerTy t → SamplerTy (.pointer t)
  | array {t} : SamplerTy t → SamplerTy (.array t)
  | runtimeArray {t} : SamplerTy t → SamplerTy (.runtimeArray t)

/-- A resource of the module: a variable with a descriptor set and a binding number. -/
def Resource (m : Mod) (v : Var) : Prop :=
  ∃ d ∈ m.decls, d.id = v.id ∧ d.ty = v.ty ∧ .set v.set ∈ d.decos ∧ .binding v.first ∈ d.decos

/-- No variable has two descriptor sets or two binding numbers. -/
def Single (m : Mod) : Prop :=
  ∀ d ∈ m.decls, ∀ n k, (.set n ∈ d.decos → .set k ∈ d.decos → n = k) ∧
    (.binding n ∈ d.decos → .binding k ∈ d.decos → n = k)

/-- A sampler, or an array of samplers (`SamplerTy`, by `sampler_types`). -/
def Sampler (v : Var) : Prop := unwrap v.ty = samplerOp

/-- The order of resources: by the binding number given, then samplers last, then by id. -/
def Before (x y : Var) : Prop :=
  x.first < y.first ∨ x.first = y.first ∧
    (¬ Sampler x ∧ Sampler y ∨ (Sampler x ↔ Sampler y) ∧ x.id < y.id)

/-- Binding numbers without conflicts: none is lowered, and within one set of one entry point they
keep the order strictly. -/
structure Resolved (m : Mod) (c : Var → Nat) : Prop where
  up : ∀ v, v.first ≤ c v
  fits : ∀ v ∈ m.vars, c v < 2 ^ 32
  order : ∀ e ∈ m.entries, ∀ x y, UsedBy m e x → UsedBy m e y → x.set = y.set → Before x y →
    c x < c y

/-- A module as the pass finds it: ids are distinct, calls are not recursive, numbers have 32 bits,
and the map of an entry point has the sets it uses. -/
structure Ok (m : Mod) : Prop where
  ids : m.decls.Pairwise fun x y => x.id ≠ y.id
  calls : ∃ rank : Nat → Nat, ∀ f, ∀ g ∈ m.calls f, rank g < rank f
  words : ∀ v ∈ m.vars, v.first < 2 ^ 32
  keys : ∀ e ∈ m.entries, ∀ v, UsedBy m e v → v.set ∈ m.keys e

/-- The pass ends, with these numbers and this report. -/
def Ends (m : Mod) (b : Var → Nat) (modified : Bool) : Prop :=
  ∃ fuel, process m fuel = some (b, modified)

end Verif.Bindings.Spec
