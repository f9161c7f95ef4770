import Verif.VectorDce.Model
/-!
# What the instructions the pass knows about compute

Independent of the pass. A value is a function from component numbers; a scalar is its component 0, and
a value of any other type is described by all its components, in some coding.
-/
namespace Verif.VectorDce.Spec
open Verif.SsaExec Verif.VectorDce
variable {I B X M : Type} [DecidableEq I]

/-- The meaning of what the pass does not look into. -/
structure Base (I B X M : Type) where
  start : I → Option (Nat → X)
  mem : M
  /-- result of an instruction without effects; it may read memory, as a load does -/
  pure : I → List (Nat → X) → M → Nat → X
  /-- one lane of an instruction that works lane by lane, from the lanes of the operands -/
  lane : I → Nat → List X → X
  act : I → List (Nat → X) → M → (Nat → X) → M → Prop
  jump : I → List (Nat → X) → M → B → Prop

/-- Component `k` of the vector made of these operands (OpCompositeConstruct); `none` when there are
fewer components. -/
def piece (f : Func I B) : List I → List (Nat → X) → Nat → Option X
  | d :: ds, v :: vs, k =>
    match f.shape d with
    | .scalar => if k = 0 then some (v 0) else piece f ds vs (k - 1)
    | .vec n => if k < n then some (v k) else piece f ds vs (k - n)
    | .other => none
  | _, _, _ => none

/-- Lane `k` of each operand; a scalar operand is the same in every lane. -/
def lanesOf (f : Func I B) (k : Nat) : List I → List (Nat → X) → List X
  | d :: ds, v :: vs => (if f.shape d = .scalar then v 0 else v k) :: lanesOf f k ds vs
  | _, _ => []

/-- Component `k` of the result of an instruction without effects; `none` when it is undefined. -/
def comp (f : Func I B) (S : Base I B X M) (i : I) (a : List (Nat → X)) (m : M) (k : Nat) : Option X :=
  match f.kind i, f.ops i, a with
  | .extract [], [_], [v] => some (v k)
  | .extract (j :: _), [c], [v] =>
    match f.shape c with
    | .vec n => if j < n then some (v j) else none
    | _ => some (S.pure i a m k)
  | .insert [], [_, _], [o, _] => some (o k)
  | .insert (p :: _), [_, _], [o, c] =>
    match f.shape i with
    | .vec _ => if k = p then some (o 0) else some (c k)
    | _ => some (S.pure i a m k)
  | .shuffle idx, [d, e], [v, w] =>
    match idx[k]? with
    | some n => if n < f.count d then some (v n) else
        if n - f.count d < f.count e then some (w (n - f.count d)) else none
    | none => none
  | .construct, ds, vs =>
    match f.shape i with
    | .vec _ => piece f ds vs k
    | _ => some (S.pure i a m k)
  | .lanes, ds, vs =>
    match f.shape i with
    | .other => some (S.pure i a m k)
    | _ => some (S.lane i k (lanesOf f k ds vs))
  | .plain, _, _ => some (S.pure i a m k)
  | _, _, _ => none

/-- The meaning of the instructions of `f`. -/
def sem (f : Func I B) (S : Base I B X M) : Sem I B (Nat → X) M where
  start := S.start
  mem := S.mem
  act i a m x m' :=
    if f.combinator i then m' = m ∧ ∀ k y, comp f S i a m k = some y → x k = y else S.act i a m x m'
  jump := S.jump

/-- The components a value of this shape has. -/
def Has : Shape → Nat → Prop
  | .scalar, k => k = 0
  | .vec n, k => k < n
  | .other, _ => True

/-- The same values, for operands of these shapes. -/
inductive Same (f : Func I B) : List I → List (Nat → X) → List (Nat → X) → Prop where
  | nil : Same f [] [] []
  | cons {d ds v vs w ws} : (∀ k, Has (f.shape d) k → v k = w k) → Same f ds vs ws →
      Same f (d :: ds) (v :: vs) (w :: ws)

/-- The meaning depends on the values of the operands only. -/
structure Depends (f : Func I B) (S : Base I B X M) : Prop where
  pure : ∀ i a a', Same f (f.ops i) a a' → S.pure i a = S.pure i a'
  act : ∀ i a a', Same f (f.ops i) a a' → S.act i a = S.act i a'
  jump : ∀ i a a', Same f (f.ops i) a a' → S.jump i a = S.jump i a'

/-- The code is well typed, as far as the pass looks at types, and its vectors have at most 16
components. -/
structure Typed (f : Func I B) : Prop where
  extract : ∀ i idx, f.kind i = .extract idx → ∃ c, f.ops i = [c]
  extract_none : ∀ i c, f.kind i = .extract [] → f.ops i = [c] → f.shape c = f.shape i
  extract_some : ∀ i c j idx, f.kind i = .extract (j :: idx) → f.ops i = [c] → f.shape c ≠ .scalar
  insert : ∀ i idx, f.kind i = .insert idx → ∃ o c, f.ops i = [o, c] ∧ f.shape c = f.shape i ∧
    (idx = [] → f.shape o = f.shape i) ∧ (idx ≠ [] → f.shape i ≠ .scalar ∧ (f.shape i ≠ .other → f.shape o = .scalar))
  shuffle : ∀ i idx, f.kind i = .shuffle idx → ∃ a b n1 n2, f.ops i = [a, b] ∧ f.shape a = .vec n1 ∧ f.shape b = .vec n2
  construct : ∀ i n, f.kind i = .construct → f.shape i = .vec n → ∀ d ∈ f.ops i, f.shape d ≠ .other
  /-- only vectors and compound objects are constructed and shuffled -/
  construct_kind : ∀ i, f.kind i = .construct → f.shape i ≠ .scalar
  lanes : ∀ i, f.kind i = .lanes → f.shape i ≠ .other → ∀ d ∈ f.ops i, f.shape d ≠ .other
  phi : ∀ b, ∀ p ∈ f.phis b, f.kind p = .lanes ∧ f.ops p = [] ∧ ∀ x ∈ f.args p, f.shape x.1 = f.shape p
  body : ∀ b, ∀ i ∈ f.body b, f.args i = []
  term : ∀ b l t, f.body b = l ++ [t] → f.combinator t = false
  blocks : ∀ b, b ∈ f.blocks
  small : ∀ d n, f.shape d = .vec n → n ≤ 16

/-- The two points are at the same place, with the same memory, after the same instructions. -/
def Match {V : Type} (c c' : Config I B V M) : Prop :=
  c.block = c'.block ∧ c.rest = c'.rest ∧ c.mem = c'.mem ∧ c.hist = c'.hist

end Verif.VectorDce.Spec
