/-!
# Unifying constants

`source/opt/unify_const_pass.cpp`.
-/
namespace Verif.UnifyConst

/-- An operand: an id or a word of a literal. The type of the result is an operand, the id of the
result is not. -/
inductive Opd where
  | ref (id : Nat)
  | lit (n : Nat)
deriving DecidableEq

/-- `decorated`: there are annotations of the result. -/
structure Inst where
  op : Nat
  id : Nat
  opds : List Opd
  decorated : Bool
deriving DecidableEq

mutual
/-- `Node`, unify_const_pass.cpp:56-84; 0: no id. -/
inductive Trie where
  | node (rid : Nat) (next : Kids)
inductive Kids where
  | nil
  | cons (k : Nat) (t : Trie) (rest : Kids)
end

/-- `next_.find`. -/
def Kids.find : Kids → Nat → Option Trie
  | .nil, _ => none
  | .cons k t r, x => if k = x then some t else r.find x

/-- The map with the node of a key changed or new. -/
def Kids.put : Kids → Nat → Trie → Kids
  | .nil, x, n => .cons x n .nil
  | .cons k t r, x, n => if k = x then .cons k n r else .cons k t (r.put x n)

/-- The loop of `LookupEquivalentResultFor` with `GetOrCreateTrieNodeFor`,
unify_const_pass.cpp:42-52, 69-77: the id found and the trie after. -/
def walk : List Nat → Nat → Trie → Nat × Trie
  | [], id, .node rid ch => if rid = 0 then (id, .node id ch) else (rid, .node rid ch)
  | k :: ks, id, .node rid ch =>
    let r := walk ks id ((ch.find k).getD (.node 0 .nil))
    (r.1, .node rid (ch.put k r.2))

def word : Opd → Nat
  | .ref i => i
  | .lit n => n

/-- `GetLookUpKeys`, unify_const_pass.cpp:88-100. -/
def keys (x : Inst) : List Nat := x.op :: x.opds.map word

/-- The cases of the switch, unify_const_pass.cpp:139-156: OpConstantTrue, OpConstantFalse,
OpConstant, OpConstantComposite, OpConstantSampler, OpConstantNull, OpSpecConstantComposite,
OpSpecConstantOp. -/
def unifiable (op : Nat) : Bool := [41, 42, 43, 44, 45, 46, 51, 52].contains op

def substOpd (s : Nat → Nat) : Opd → Opd
  | .ref i => .ref (s i)
  | .lit n => .lit n

def subst (s : Nat → Nat) (x : Inst) : Inst := { x with opds := x.opds.map (substOpd s) }

/-- The result: the instructions left, what each id is replaced by, whether something changed. -/
structure Out where
  insts : List Inst
  repl : Nat → Nat
  modified : Bool

/-- The loop of `Process`, unify_const_pass.cpp:106-172. `ReplaceAllUsesWith` changes all uses at
once; here the replacements made so far are applied when an instruction is reached (and to the rest
of the module at the end). -/
def go : List Inst → (Nat → Nat) → Trie → Bool → Out
  | [], s, _, m => ⟨[], s, m⟩
  | x :: l, s, t, m =>
    let x' := subst s x
    if x.decorated then
      let o := go l s t m
      { o with insts := x' :: o.insts }
    else if unifiable x.op then
      let r := walk (keys x') x.id t
      if r.1 ≠ x.id then go l (fun i => if i = x.id then r.1 else s i) r.2 true
      else
        let o := go l s r.2 m
        { o with insts := x' :: o.insts }
    else
      let o := go l s t m
      { o with insts := x' :: o.insts }

/-- `UnifyConstantPass::Process`. -/
def unify (l : List Inst) : Out := go l (fun i => i) (.node 0 .nil) false

end Verif.UnifyConst
