import Verif.DeadMembers.Model
/-!
# Values with members removed
-/
namespace Verif.DeadMembers.Spec

inductive Val where
  | scalar (n : Nat)
  | comp (vs : List Val)

/-- The part of a value at a path: OpCompositeExtract, a load through an access chain. -/
def getAt : List Nat → Val → Option Val
  | [], v => some v
  | i :: p, .comp vs => match vs[i]? with
    | some v => getAt p v
    | none => none
  | _ :: _, .scalar _ => none

/-- The value with the part at a path replaced: OpCompositeInsert, a store through an access
chain. -/
def setAt (x : Val) : List Nat → Val → Option Val
  | [], _ => some x
  | i :: p, .comp vs => match vs[i]? with
    | some v => (setAt x p v).map fun w => .comp (vs.set i w)
    | none => none
  | _ :: _, .scalar _ => none

/-- The type at a path. -/
def tyAt (ty : Types) : List Nat → Nat → Option Nat
  | [], t => some t
  | i :: p, t =>
    match ty t with
    | .struct ms => match ms[i]? with
      | some m => tyAt ty p m
      | none => none
    | .arr e => tyAt ty p e
    | .vec e => tyAt ty p e
    | .leaf => none

/-- `v'` is `v`, a value of type `t`, without the members that are not kept, at all depths. -/
inductive Shrunk (ty : Types) (keep : Nat → List Nat) : Nat → Val → Val → Prop where
  | leaf {t v} : ty t = .leaf → Shrunk ty keep t v v
  | vec {t e v} : ty t = .vec e → Shrunk ty keep t v v
  | arr {t e vs vs'} : ty t = .arr e → vs.length = vs'.length →
      (∀ (i : Nat) v v', vs[i]? = some v → vs'[i]? = some v' → Shrunk ty keep e v v') →
      Shrunk ty keep t (.comp vs) (.comp vs')
  | struct {t ms vs vs'} : ty t = .struct ms → vs.length = ms.length →
      vs'.length = (keep t).length →
      (∀ (k i m : Nat) v v', (keep t)[k]? = some i → ms[i]? = some m → vs[i]? = some v →
        vs'[k]? = some v' → Shrunk ty keep m v v') →
      Shrunk ty keep t (.comp vs) (.comp vs')

/-- A value of a type. -/
inductive HasTy (ty : Types) : Nat → Val → Prop where
  | leaf {t v} : ty t = .leaf → HasTy ty t v
  | vec {t e v} : ty t = .vec e → HasTy ty t v
  | arr {t e vs} : ty t = .arr e → (∀ (i : Nat) v, vs[i]? = some v → HasTy ty e v) →
      HasTy ty t (.comp vs)
  | struct {t ms vs} : ty t = .struct ms → vs.length = ms.length →
      (∀ (i m : Nat) v, ms[i]? = some m → vs[i]? = some v → HasTy ty m v) → HasTy ty t (.comp vs)

/-- Types are not recursive, and their depth is below the given one; elements of vectors and
matrices have no structures in them; indices of members exist. -/
structure Ok (m : Mod) : Prop where
  rank : ∃ r : Nat → Nat, (∀ t, r t < m.depth) ∧
    (∀ t ms x, m.ty t = .struct ms → x ∈ ms → r x < r t) ∧ (∀ t e, m.ty t = .arr e → r e < r t)
  vec : ∀ t e, m.ty t = .vec e → m.ty e = .leaf ∨ ∃ e', m.ty e = .vec e'
  paths : ∀ i ∈ m.insts, ∀ t p, (i = .extract t p ∨ i = .chain t p ∨ ∃ e, i = .ptrChain t e p) →
    ∃ s, tyAt m.ty p t = some s
  globals : ∀ t p, .specExtract t p ∈ m.globals → ∃ s, tyAt m.ty p t = some s
  lengths : ∀ t i, .arrayLength t i ∈ m.insts → ∃ ms, m.ty t = .struct ms ∧ i < ms.length

/-- Values of these types are seen as a whole: by the outside or by an instruction that the pass
does not know. -/
inductive Seen (m : Mod) : Nat → Prop where
  | store {t} : .store t ∈ m.insts → Seen m t
  | copy {t} : .copyMemory t ∈ m.insts → Seen m t
  | ret {t} : .ret t ∈ m.insts → Seen m t
  | other {ts t} : .other ts ∈ m.insts → t ∈ ts → Seen m t
  | inOut {t} : .inOut t ∈ m.globals → Seen m t
  | buffer {t} : .storageBuffer t ∈ m.globals → Seen m t
  | physical {t} : .physicalPtr t ∈ m.globals → Seen m t

end Verif.DeadMembers.Spec
