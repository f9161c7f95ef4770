import Verif.UnifyConst.Model
/-!
# Values of constants
-/
namespace Verif.UnifyConst.Spec

section
variable {V : Type}

def arg (env : Nat → V) : Opd → V ⊕ Nat
  | .ref i => .inl (env i)
  | .lit n => .inr n

/-- The value of an instruction: of constants that can be unified a function of opcode and operands;
of others (specialization constants with their own number, variables, types) also of the id. Which
functions is left open, so this is for every specialization. -/
def value (ev : Nat → List (V ⊕ Nat) → V) (own : Nat → Nat → List (V ⊕ Nat) → V) (env : Nat → V)
    (x : Inst) : V :=
  if unifiable x.op then ev x.op (x.opds.map (arg env)) else own x.id x.op (x.opds.map (arg env))

/-- The values of all ids. -/
def eval (ev : Nat → List (V ⊕ Nat) → V) (own : Nat → Nat → List (V ⊕ Nat) → V) :
    List Inst → (Nat → V) → Nat → V
  | [], env => env
  | x :: l, env => eval ev own l fun i => if i = x.id then value ev own env x else env i
end

def isRef : Opd → Bool
  | .ref _ => true
  | .lit _ => false

/-- Literals at the same place are the same. -/
def litsAgree : List Opd → List Opd → Prop
  | .lit a :: l, .lit b :: l' => a = b ∧ litsAgree l l'
  | _ :: l, _ :: l' => litsAgree l l'
  | _, _ => True

/-- Ids are not 0 and are defined once; operands of constants are defined before; which operands are
ids follows from the opcode, the number of operands and the literals (the grammar of SPIR-V). -/
structure Ok (l : List Inst) : Prop where
  nonzero : ∀ x ∈ l, x.id ≠ 0
  once : l.Pairwise fun x y => x.id ≠ y.id
  before : ∀ a x b, l = a ++ x :: b → unifiable x.op → ∀ i, .ref i ∈ x.opds → ∀ y ∈ x :: b, y.id ≠ i
  noForward : ∀ a x b, l = a ++ x :: b → ∀ i, .ref i ∈ x.opds → ∀ y ∈ x :: b, unifiable y.op → y.id ≠ i
  grammar : ∀ x ∈ l, ∀ y ∈ l, unifiable x.op → x.op = y.op → x.opds.length = y.opds.length →
    litsAgree x.opds y.opds → x.opds.map isRef = y.opds.map isRef

end Verif.UnifyConst.Spec
