import Verif.Vn.Check

/-
# Concrete functions: a loop, and two for which the claims fail
-/

set_option linter.unusedSimpArgs false

namespace Verif.Vn

/-! ## A meaning for the instructions -/

def argSum : List (Arg Int) → Int
  | [] => 0
  | .val x :: as => x + argSum as
  | .lit ws :: as => ws.sum + argSum as

def exFn (op : String) (_ty : Id) (_d : List Nat) (as : List (Arg Int)) : Int :=
  if op = "OpCopyObject" then (match as with | .val x :: _ => x | _ => 0) else argSum as

def functionalB (P : Prog) (i : Inst) : Bool :=
  (isCombinator P i || P.debug i) && i.op != "OpVariable" && i.op != "OpUntypedVariableKHR" &&
    (!reads i.op || (i.readOnly && !isVolatile i))

/-- Functions of the operands where that is asked for; other instructions yield the length
of the past. -/
def exSem (P : Prog) : Sem Int where
  val i t as := if functionalB P i || i.op == "OpCopyObject" then exFn i.op i.ty (P.deco i.result) as else t.length
  fn := exFn

theorem exSem_ok (P : Prog) : (exSem P).Ok P := by
  refine ⟨?_, ?_, ?_⟩
  · rintro i t args ⟨h1, h2, h3, h4⟩
    have : functionalB P i = true := by
      simp only [functionalB, Bool.and_eq_true, Bool.or_eq_true, bne_iff_ne]
      refine ⟨⟨⟨h1, h2⟩, h3⟩, ?_⟩
      cases hl : reads i.op with
      | false => simp
      | true => simp [h4 hl]
    simp [exSem, this]
  · intro i t x args h
    simp [exSem, h, exFn]
  · intro op ty d a b h
    have : op ≠ "OpCopyObject" := by rintro rfl; exact absurd h (by decide)
    simp only [exSem, exFn, this, if_false]
    cases a <;> cases b <;> simp [argSum] <;> omega

/-! ## A loop -/

/-- Block 0 is the module; 9 is a parameter.
```
20 = 9 + 10; 21 = 10 + 9
do { 22 = phi(20, 24); 29 = phi(21, 24); 23 = 22 * 10; 28 = 29 * 10;
     if (..) { 24 = 22 + 20; 25 = 21 + 29; store 25 } else break }
26 = copy 20; store 26; store 28
``` -/
def loopP : Prog where
  entry := 0
  order := [0, 1, 2, 3, 4]
  insts b := match b with
    | 0 => [⟨"OpConstant", 1, 10, [.lit [5]], false, false⟩]
    | 1 => [⟨"OpIAdd", 1, 20, [.id 9, .id 10], false, false⟩, ⟨"OpIAdd", 1, 21, [.id 10, .id 9], false, false⟩]
    | 2 => [⟨"OpPhi", 1, 22, [.id 20, .id 1, .id 24, .id 3], false, false⟩,
            ⟨"OpPhi", 1, 29, [.id 21, .id 1, .id 24, .id 3], false, false⟩,
            ⟨"OpIMul", 1, 23, [.id 22, .id 10], false, false⟩, ⟨"OpIMul", 1, 28, [.id 29, .id 10], false, false⟩]
    | 3 => [⟨"OpIAdd", 1, 24, [.id 22, .id 20], false, false⟩, ⟨"OpIAdd", 1, 25, [.id 21, .id 29], false, false⟩,
            ⟨"OpStore", 0, 0, [.id 8, .id 25], false, false⟩]
    | 4 => [⟨"OpCopyObject", 1, 26, [.id 20], false, false⟩, ⟨"OpStore", 0, 0, [.id 8, .id 26], false, false⟩,
            ⟨"OpStore", 0, 0, [.id 8, .id 28], false, false⟩]
    | _ => []
  preds b := match b with
    | 1 => [0]
    | 2 => [1, 3]
    | 3 => [2]
    | 4 => [2]
    | _ => []
  deco _ := []
  extComb _ := false
  debug _ := false
  shader := true

def loopD : Block → List Block
  | 1 => [0]
  | 2 => [0, 1]
  | 3 => [0, 1, 2]
  | 4 => [0, 1, 2]
  | _ => []

def loopKids : Block → List Block
  | 1 => [2]
  | 2 => [3, 4]
  | _ => []

theorem loop_fin : ∀ c, c ∉ loopP.order → loopP.preds c = [] := by
  intro c hc
  simp [loopP] at hc ⊢
  split <;> simp_all

theorem loop_valid : Valid loopP := valid_of_check (D := loopD) loop_fin (by decide +kernel)

theorem loop_tree : DomTree loopP 1 loopKids :=
  tree_of_check (D := loopD) loop_fin (by decide) (by decide +kernel)
    (fun b hb => by simp [loopP] at hb; unfold loopKids; split <;> simp_all) (by decide +kernel)

theorem loop_clean : Clean loopP := by
  have : (loopP.order.all fun b => (loopP.insts b).all fun i =>
      i.op != "OpUntypedVariableKHR" && !isVolatile i) = true := by decide +kernel
  simpa [Clean] using this

def loopRep : List (Id × Id) := [(21, 20), (29, 22), (28, 23), (25, 24), (26, 20)]

theorem loop_elim : elimFrom (build loopP).num loopP.insts loopKids 5 [(1, [])] = some loopRep := by
  decide +kernel

def loopTrace : List Pt := [(4, 1), (4, 0), (2, 4), (2, 3), (2, 2), (2, 1), (2, 0), (3, 3), (3, 2), (3, 1),
  (3, 0), (2, 4), (2, 3), (2, 2), (2, 1), (2, 0), (1, 2), (1, 1), (1, 0), (0, 1), (0, 0)]

theorem loop_trace : Trace loopP ((4, 2) :: loopTrace) := by
  refine .step (.step (.edge (.step (.step (.step (.step (.edge (.step (.step (.step (.edge (.step (.step
    (.step (.step (.edge (.step (.step (.edge (.step .start ?_) ?_ ?_) ?_) ?_) ?_ ?_) ?_) ?_) ?_) ?_) ?_ ?_) ?_)
    ?_) ?_) ?_ ?_) ?_) ?_) ?_) ?_) ?_ ?_) ?_) ?_ <;> decide +kernel

example (G : Id → Int) :
    [.id 8, .id 28].map (Opnd.eval loopRep (run loopP (exSem loopP) loopRep G ((4, 2) :: loopTrace))) =
    [.id 8, .id 28].map (Opnd.eval [] (run loopP (exSem loopP) [] G ((4, 2) :: loopTrace))) :=
  global_elimination_partial loop_valid loop_clean (exSem_ok loopP) G loop_tree loop_elim loop_trace
    (i := ⟨"OpStore", 0, 0, [.id 8, .id 28], false, false⟩) (by decide +kernel) (by decide)

/-- The value is not trivial. -/
example : run loopP (exSem loopP) [] (fun x => (x : Int)) ((4, 2) :: loopTrace) 28 = 33 := by decide +kernel

example (G : Id → Int) {b : Block} {k : Nat} {t : List Pt} (ht : Trace loopP ((b, k) :: t)) {i : Inst}
    (hi : (loopP.insts b)[k]? = some i) (ho : i.op ≠ "OpPhi") :
    i.ops.map (Opnd.eval (elimLocal (build loopP).num loopP.insts [1, 2, 3, 4])
      (run loopP (exSem loopP) (elimLocal (build loopP).num loopP.insts [1, 2, 3, 4]) G ((b, k) :: t))) =
      i.ops.map (Opnd.eval [] (run loopP (exSem loopP) [] G ((b, k) :: t))) :=
  local_elimination_partial loop_valid loop_clean (exSem_ok loopP) G (bs := [1, 2, 3, 4]) (by decide)
    (by decide) rfl ht hi ho

example : elimLocal (build loopP).num loopP.insts [1, 2, 3, 4] = [(21, 20), (29, 22), (28, 23), (25, 24)] := by
  decide +kernel

example : (build loopP).num 21 = (build loopP).num 20 ∧ (build loopP).num 25 = (build loopP).num 24 ∧
    (build loopP).num 22 ≠ (build loopP).num 20 := by decide +kernel

/-- Two additions in a row. -/
def twiceP : Prog := { loopP with
  order := [0]
  insts := fun b => match b with
    | 0 => [⟨"OpIAdd", 1, 20, [.id 9, .id 9], false, false⟩, ⟨"OpIAdd", 1, 21, [.id 9, .id 9], false, false⟩]
    | _ => []
  preds := fun _ => [] }

example : (build twiceP).num 21 = (build twiceP).num 20 :=
  repeated_same_number (valid_of_check (D := fun _ => []) (fun _ _ => rfl) (by decide +kernel))
    (u := []) (v := []) (w := []) (i := ⟨"OpIAdd", 1, 20, [.id 9, .id 9], false, false⟩)
    (j := ⟨"OpIAdd", 1, 21, [.id 9, .id 9], false, false⟩)
    (by decide +kernel) (by decide +kernel) (by decide +kernel) (by decide) (by decide) rfl rfl rfl rfl
    (by intro x hx hm; simp [ids] at hx; subst hx; exact absurd hm (by decide +kernel))

/-! ## Variables that are taken for one -/

def badBase (is : List Inst) : Prog where
  entry := 0
  order := [0, 1]
  insts b := match b with
    | 1 => is
    | _ => []
  preds b := match b with
    | 1 => [0]
    | _ => []
  deco _ := []
  extComb _ := false
  debug _ := false
  shader := true

theorem bad_fin (is : List Inst) : ∀ c, c ∉ (badBase is).order → (badBase is).preds c = [] := by
  intro c hc
  simp [badBase] at hc ⊢
  split <;> simp_all

def badD : Block → List Block
  | 1 => [0]
  | _ => []

/-- Two untyped variables of the storage class Function (7) with data type 2. -/
def varP : Prog := badBase [⟨"OpUntypedVariableKHR", 1, 20, [.lit [7], .id 2], false, false⟩,
  ⟨"OpUntypedVariableKHR", 1, 21, [.lit [7], .id 2], false, false⟩,
  ⟨"OpStore", 0, 0, [.id 21, .id 9], false, false⟩]

/-- Two variables declared with `OpUntypedVariableKHR` are made one: the list of combinators
has the opcode (ir_context.cpp:639) and the switch for variables has not
(value_number_table.cpp:101-108).  The store went to the second variable (here: 4) and
goes to the first (3). -/
theorem untyped_variables_merged : ∃ (P : Prog) (S : Sem Int) (G : Id → Int) (t : List Pt), Valid P ∧
    S.Ok P ∧ Trace P ((1, 2) :: t) ∧
    elimLocal (build P).num P.insts [1] = [(21, 20)] ∧
    (P.insts 1)[2]? = some ⟨"OpStore", 0, 0, [.id 21, .id 9], false, false⟩ ∧
    run P S [] G ((1, 2) :: t) 21 = 4 ∧ run P S [(21, 20)] G ((1, 2) :: t) (use [(21, 20)] 21) = 3 := by
  refine ⟨varP, exSem varP, fun _ => 0, [(1, 1), (1, 0), (0, 0)], valid_of_check (D := badD) (bad_fin _)
    (by decide +kernel), exSem_ok _, ?_, by decide +kernel, rfl, by decide +kernel, by decide +kernel⟩
  exact .step (.step (.edge .start rfl (by decide)) (by decide)) (by decide)

/-- Two volatile loads (memory operand 1) of a read-only variable. -/
def volP : Prog := badBase [⟨"OpLoad", 1, 20, [.id 8, .lit [1]], true, false⟩,
  ⟨"OpLoad", 1, 21, [.id 8, .lit [1]], true, false⟩,
  ⟨"OpStore", 0, 0, [.id 7, .id 21], false, false⟩]

/-- Two volatile loads of a variable in read-only storage, say the built-in HelperInvocation,
are made one, although the comment at value_number_table.cpp:127-129 says they are not. -/
theorem volatile_loads_merged : ∃ (P : Prog) (S : Sem Int) (G : Id → Int) (t : List Pt), Valid P ∧
    S.Ok P ∧ Trace P ((1, 2) :: t) ∧
    elimLocal (build P).num P.insts [1] = [(21, 20)] ∧
    (P.insts 1)[1]? = some ⟨"OpLoad", 1, 21, [.id 8, .lit [1]], true, false⟩ ∧
    run P S [] G ((1, 2) :: t) 21 = 4 ∧ run P S [(21, 20)] G ((1, 2) :: t) (use [(21, 20)] 21) = 3 := by
  refine ⟨volP, exSem volP, fun _ => 0, [(1, 1), (1, 0), (0, 0)], valid_of_check (D := badD) (bad_fin _)
    (by decide +kernel), exSem_ok _, ?_, by decide +kernel, rfl, by decide +kernel, by decide +kernel⟩
  exact .step (.step (.edge .start rfl (by decide)) (by decide)) (by decide)

end Verif.Vn
