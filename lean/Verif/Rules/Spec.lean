import Verif.Rules.Model

/-!
# What it means that a rewriting is right

An execution reaches the instruction with values for some ids.  The rewriting is right if, with
these values, none of the new instructions has undefined behaviour unless the old instruction had,
and every value the rewritten instruction may produce is one the old instruction may have
produced.
-/
namespace Verif.Rules

variable {F : Type} [FloatSem F] [DecidableEq F]

/-- The value of a scalar constant. -/
def SC.val : SC F → SV F
  | .int w _ v => .i w v
  | .float _ x => .f x
  | .bool v => .b v
  | .null (.int w _) => .i w 0#w
  | .null (.float _) => .f 0
  | .null .bool => .b false
  | .null (.other _) => .o 0

/-- The value of a constant. -/
def Const.lanes : Const F → Val F
  | .sc c => [c.val]
  | .vec _ cs => cs.map SC.val
  | .nullv b n => List.replicate n (SC.null (F := F) b).val

/-- The values an execution has computed when it gets to the instruction (`none`: not, or not
relevant): each is one its definition may have produced from the values of the operands, and
constants have their values.  (In SSA form the operands of a definition that dominates the
instruction still have the values they had when it was executed.  Phis are `other`, so that
nothing is assumed about them.) -/
structure Consistent (env : Env F) (ρ : Id → Option (Val F)) : Prop where
  consts : ∀ x v c, ρ x = some v → env.const x = some c → v = c.lanes
  defs : ∀ x v, ρ x = some v →
    Result (env.get x).op (env.get x).ty ((env.get x).args.map ρ) v

/-- The value of an operand, given those of the added instructions. -/
def Ref.val (ρ : Id → Option (Val F)) (νs : List (Val F)) : Ref F → Option (Val F)
  | .id x => ρ x
  | .c k => some k.lanes
  | .new k => νs[k]?

/-- Executing the added instructions and then the rewritten one, all of type `ty`, never has
undefined behaviour, and the last result is in `good`. -/
def Safe (ρ : Id → Option (Val F)) (ty : Ty) (good : Val F → Prop) (op : Op) (args : List (Ref F)) :
    List (Op × List (Ref F)) → List (Val F) → Prop
  | [], νs =>
    ¬ UB op ty (args.map (Ref.val ρ νs)) ∧ ∀ v, Result op ty (args.map (Ref.val ρ νs)) v → good v
  | (o, as) :: rest, νs =>
    ¬ UB o ty (as.map (Ref.val ρ νs)) ∧
      ∀ ν, Result o ty (as.map (Ref.val ρ νs)) ν → Safe ρ ty good op args rest (νs ++ [ν])

/-- The rewriting of `d` to `new` is right in an execution that has computed `ρ`. -/
def RightAt (ρ : Id → Option (Val F)) (d : Inst) (new : New F) : Prop :=
  ¬ UB d.op d.ty (d.args.map ρ) →
    Safe ρ d.ty (Result d.op d.ty (d.args.map ρ)) new.op new.args new.adds []

/-- The rewriting of `d` to `new` is right. -/
def Refines (env : Env F) (d : Inst) (new : New F) : Prop :=
  ∀ ρ, Consistent env ρ → RightAt ρ d new

/-- What the folder makes of an operation on constants is right: a constant of the type, each lane
of which is what the operation gives, where that is defined. -/
def FoldRight (env : Env F) : Prop :=
  ∀ op ty a b c, env.fold op ty a b = some c →
    c.lanes.length = ty.n ∧ ∀ i, i < ty.n → ∃ s, c.lanes[i]? = some s ∧ s.hasTy ty.base = true ∧
      (lane op ty [some a.lanes, some b.lanes] i ≠ .ub →
        (lane op ty [some a.lanes, some b.lanes] i).allows ty.base s)

/-- Vector constants have at least two components, and not absurdly many. -/
def VecOk (env : Env F) : Prop :=
  ∀ x b cs, env.const x = some (.vec b cs) → 2 ≤ cs.length ∧ 2 * cs.length < 2 ^ 32

/-- The operands have as many lanes as the result, but for the scalar of
`OpVectorTimesScalar` and the condition of `OpSelect`. -/
def Shaped (env : Env F) (d : Inst) : Prop :=
  ∀ k x, d.args[k]? = some x → d.op ≠ .select → (env.get x).ty.n = if d.op = .vts ∧ k = 1 then 1 else d.ty.n

/-- Operations that may have undefined behaviour because of a value. -/
def Op.division : Op → Bool
  | .udiv | .sdiv | .fdiv => true
  | _ => false

/-- Negation of a signed quotient moves to the constant without harm. -/
def NegDivSafe (env : Env F) (e : Inst) : Prop :=
  ∀ p q, e.args = [p, q] →
    (∀ c, env.const p = some c → ∀ (i w : Nat) v, c.lanes[i]? = some (.i w v) → v ≠ BitVec.intMin w) ∧
    (∀ c, env.const p = none → env.const q = some c → ∀ (i w : Nat) v, c.lanes[i]? = some (.i w v) →
      v ≠ BitVec.intMin w ∧ v ≠ 1#w)

/-- Facts about the module the rules take for granted: operands have as many lanes as the result,
vector constants have at least two components, and folding an operation on constants is right. -/
structure WellFormed (env : Env F) (d : Inst) : Prop where
  shaped : Shaped env d
  vectors : VecOk env
  fold : FoldRight env

/-- The instruction is the negation of a signed quotient of a constant and something. -/
def NegatedQuotient (env : Env F) (d : Inst) : Prop :=
  d.op = .sneg ∧ ∃ x, d.args = [x] ∧ (env.get x).op = .sdiv

/-- The instruction is a division one operand of which is a select. -/
def SelectDivision (env : Env F) (d : Inst) : Prop :=
  d.op.division = true ∧ ∃ x ∈ d.args, (env.get x).op = .select

end Verif.Rules
