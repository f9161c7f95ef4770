# Formal model of SPIRV-Tools in Lean 4

`properties.jsonl` lists the properties (C01…). `lean/` is a Lake project; each
area `X` of the code base has

* `Verif/X/Model.lean`  – the model: total computable functions, one per C++
  function, each with a comment citing the modelled lines of `/repo`;
* `Verif/X/Lemmas.lean` – helper lemmas (no claims are made here);
* `Verif/X/Spec.lean` (or the head of `Props.lean`) – a small specification
  independent of the model's helpers;
* `Verif/X/Props.lean`  – the property theorems and, beside each, an `example` showing that its hypotheses are met
  by a concrete non-trivial case.

`MANIFEST.json` maps properties to theorem names. `seeded/LOG.jsonl` records the
wrong programs the theorems were tried against.

## Trusted base

* Lean 4.33.0's kernel. Every theorem depends at most on the axioms `propext`,
  `Classical.choice` and `Quot.sound` (checked with `#print axioms`). No axiom
  is added; no `sorry`, `native_decide` or `bv_decide`.
* The hand translation from C++ to Lean. The code was read, not executed: the
  sandbox cannot build it. Citations are the audit trail.
* The C++ language semantics as used in the models: `uint32_t`/`uint64_t` are
  `BitVec 32`/`BitVec 64` (or `Nat` with explicit `% 2^w`), signed arithmetic
  that would overflow, out-of-range shifts, out-of-bounds accesses and null
  dereferences are separate outcomes (`none` / an error constructor), never
  silently totalised.
* `std::` containers are modelled by their abstract values (lists, finite maps
  as association lists or functions). Memory allocation never fails.

## What is modelled, and how each property is proved

| Id | Model | Proof plan |
|----|-------|-----------|
| C01 | `Parser::parseModule/parseInstruction/parseOperand` over an abstract grammar; every buffer read goes through a checked `peekAt` that yields a distinct `oob` outcome | lexicographic measure for termination; invariant "word index ≤ size" shows `oob` is unreachable |
| C02 | same | induction over the operand loop and instruction loop: offsets tile |
| C03 | same, with byte order as a parameter | simulation between runs on `ws` and on byte-swapped `ws` |
| C04 | same | invariant on the id→type map |
| C05 | same, callback as a state-passing function | induction over the instruction loop |
| C06 | `spvBinaryHeaderGet`, `spvBinaryEndianness`, `spvFixWord` | direct, on `BitVec 32` |
| C07 | `MakeVector/AppendToVector/MakeString` on byte lists | induction by 4-byte groups |
| C08 | `ParseNumber<int>`, `CheckRangeAndIfHexThenSignExtend`, word emission | arithmetic over `Int`/`BitVec 64` |
| C09 | `bitutils.h` | bitwise extensionality on `BitVec` |
| C10 | `HexFloat` `operator<<`, `operator>>` | induction over digits |
| C11 | `HexFloat::castTo` | arithmetic |
| C12 | disassembler escape, `getWord`, `spvTextToLiteral` | induction over the string |
| C13 | operand/instruction printers and the assembler over abstract grammar tables that agree | simulation, operand by operand, between parser and assembler states; two passes; uses C07, C08, C12, C14 |
| C14 | `spvNamedIdAssignOrGet`, numeric id preservation | invariant over histories |
| C15 | `spvOpcodeMake/Split`, instruction finalisation | arithmetic |
| C16 | `FriendlyNameMapper::SaveName` | invariant over histories |
| C17 | `EnumSet` buckets | refinement to a set: representation invariant + agreement of all observers |
| C18 | `SmallVector` inline/heap state | refinement to `List` |
| C19 | intrusive nodes as a heap of prev/next pointers | refinement to `List` with ring invariant |
| C20 | `BitVector` words | refinement to a set of `Nat` |
| C21 | explicit work-list DFS | invariant; reachability by induction |
| C22 | Cooper–Harvey–Kennedy iteration | fix-point + invariant, both directions against path-dominance |
| C23 | `TraversalRoots` | uses C21 |
| C24 | DF numbering of dominator trees | induction on trees |
| C25 | id remapping over instruction lists | invariant over the traversal |
| C26 | `UnaryOperate/BinaryOperate/TernaryOperate`, partial folds | case analysis against a `BitVec` spec |
| C27 | integer constant-folding rules | case analysis against `BitVec w` |
| C28 | algebraic rules on an expression language | evaluation equality for every valuation |
| C29 | power-of-two multiply rewriting | `BitVec` arithmetic |
| C30 | `PassManager::Run`, `Pass::Run` | induction over passes |
| C31 | def-use manager tables | invariant over histories |
| C32 | `TakeNextIdBound` | induction over requests |
| C33 | IR loader sections and re-emission | induction over instruction stream |
| C34 | `Reducer::Run/RunPasses`, `ReductionPass` | invariant over iterations |
| C35 | same | measure; exhaustive final round |
| C36 | `ShiftIdsInModules` | induction over modules |
| C37 | `GetImportExportPairs` | invariant over annotation list |
| C38 | LCS memo table + retrieval | induction; exchange argument for optimality |
| C39 | layout state machine | language equality with a section-order spec |
| C40 | `IdPass` | invariant over instruction stream |
| C41 | dominance check using C22 | combination |
| C42 | `ValidateAdjacency` state machine | language equality |
| C43 | worklist engine | invariant: unstable ⇒ enqueued |
| C44 | default value text parsing | induction |
| C45 | `SplitFlagArgs` | string lemmas |
| C46 | dead-constant work list | reachability invariant |
| C47 | call-tree traversal | reachability invariant |
| C48 | scalar-evolution simplifier | evaluation equality |
| C49 | union–find | invariant over histories |
| C50 | operand patterns | induction |
| C51 | target-env tables | whole-table case analysis lifted to all texts |
| C52 | propagator work lists | invariant |
| C53 | sign analysis of scalar-evolution expressions | abstract interpretation: each sign holds of the value |
| C54 | division of scalar-evolution expressions | induction on the chain of products |
| C55 | `FindNumberOfIterations`, `GetIterations` and the constant readers against the loop on bit vectors | ceiling division, wrap-around argument |
| C56 | `PartiallyUnroll`/`FullyUnroll` decisions and the control flow of the resulting loops, bodies arbitrary | iteration of the body, both semantics deterministic |
| C57 | `SSARewriter` as a whole: candidates, trivial phis, incomplete phis, emission; arbitrary control flow graph and values | an invariant of the run yields a solution of the reaching-definition equations; any such solution keeps all values on all paths |
| C58 | `ValueNumberTable` and both redundancy passes as functions on a module; executions are all walks through the control flow graph | each number belongs to one instruction or one key; induction along a trace shows equal numbers give equal values, then that removal keeps all operands |
| C59 | `Verif/BlockLayout`: `CheckLayout` with sizes, alignments and straddling in 32-bit arithmetic, over trees of types. | Specification: address of the part at each access path, unbounded. Induction over types: accepted layouts put different units at disjoint, aligned places; equivalence with the Vulkan rules. Counterexamples where sizes wrap or are not known. |
| C60 | `Verif/LoopDep`: `GetDependence` and all its tests on the expressions of the scalar analysis (C57's model), with null pointers, division by zero and 64-bit overflow as outcomes of their own. | Specification: iterations of counted loops, memory paths of pointers. Shape of simplified subscripts by induction, each test sound on that shape, constraints as sets of pairs of iterations, invariant of the delta test and of the partition. Counterexamples outside the class. |
| C61 | `Verif/Robust`: literal and dynamic clamping, widening, array lengths by walking backward through access chains and copies, failure and null pointers as outcomes. | Specification: values of integer instructions (undefined if types do not fit or `SClamp` has its bounds in the wrong order), memory paths of pointers, bounds of types. Induction over the instructions with an invariant for the pointers made so far: definition and path agree, the type at the end is the pointee, all indices in bounds, paths which were in bounds unchanged. Succeeds: walking backward ends because pointers are made before they are used. |
| C62 | `Verif/Ccp`: the visit function (phis, copies, folding, branches, switches), the table of values, the replacement; on top of the propagator of C52. | Specification: executions of a function as points with a partial environment, parallel phis, arbitrary relations for other instructions. The record of calls determines the table (replay); entries only descend, and a changed entry is a changed status; with `Settled` of C52 the last visit of each instruction saw the final table; induction over executions. Completion: the witness for an earlier constant is still there. |
| C63 | `Verif/VectorDce`: the marking rules, the work list, the rewriting; executions in `Verif/SsaExec`. | Specification: executions of SSA code with a memory, simultaneous phis, undefined operands read as anything; the components each vector instruction computes. The set found is closed (work list invariant), so live components depend on live components only. Dominance, stated over paths of instructions: whatever dominates a use was executed after all that dominates it (path splicing), so a bypassed insertion still has the components of its replacement. Simulation in both directions. |
| C64 | `Verif/LocalElim`: `HasOnlySupportedRefs`, `GetPtr`, `GetBaseAddress`, the scan of the blocks with its maps; `Verif/SsaExec/Replace`: simulation for passes that replace ids and remove instructions. | Specification: pointers point into variables; access to the whole and to parts; other instructions see only variables whose address gets out. Static invariant of the scan (what is killed stays killed, what is safe stays safe), facts about the maps at every point of every execution, addresses do not escape (clean values), memories differ only in variables whose outstanding store is removed. Simulation in both directions; dominance after removal by lifting paths. |
| C65 | `Verif/SingleStore`: `FindUses`, `FeedsAStore`, `FindSingleStoreAndCheckUses`, `RewriteLoads`, variable after variable on the changing function. | Specification as for C64, but memory is the same before and after. Static: what the pass finds is that the variable has a single store and a private address, whatever was rewritten before. Dynamic: from when the store is executed until its object is computed again, the variable holds the object; dominance puts the load in between. Simulation by `SsaExec/Replace`. Which loads are removed: the recursion finds the store exactly once. |
| C66 | `Verif/Adce`: the work list of live instructions over one function with `MarkBlockAsLive`, stores to local variables, breaks and continues; `StructuredCFGAnalysis`; `KillDeadInstructions`. | Specification: executions of blocks with phis, memory made of variables, instructions with visible effects; structured control flow read off the structured order. Static: the live set is closed, and nothing in a dead construct is live, which by induction on nesting bounds where its branches go. Simulation: while the function is inside a dead construct, the result waits at its header. Backwards the same with the finishing run as measure. |
| C67 | `Verif/Flatten`: both passes over the annotations and the loop over the names, with its iterator. | Specification: which decorations an id or member carries, directly or through a group. What is in the list afterwards is characterised exactly; the rest follows. The loop over the names is run for a number of turns, so that not ending is a claim about all numbers. |
| C68 | `Verif/PrivLocal`: the whole pass on modules of functions with calls, variables, access chains, phis and branches. | Specification: a machine with activations and memory cells, independent of the pass. Lockstep simulation: ids that hold addresses of moved variables are related, all else is equal. That the function is entered once is a hypothesis on runs; it is proved for entry points that are not called, and shown to be needed. |
| C69 | `Verif/Locations`: counting of locations and components, the marking of slots for variables and block members with the 32 bit arithmetic, the choice of the set, the loop over the interface. | Specification: the list of placements of an interface and the slots a type takes, by recursion over types. The validator is shown to mark the placements in turn; the marked slots are shown to be among the slots taken (always) and to be all of them below location 4096 (for all but two shapes of arrays). Witnesses show that the two shapes and the limit are needed. |
| C70 | `Verif/IfConv`: the test of the block, the choice of the value for true and for false by dominance, the checks of the definitions, the rewriting of the block. | Runs are of a machine that goes from block to block with any meaning of instructions. By induction over runs: between the branch and the end of the selection the condition is not computed again (its block dominates the branch); the side taken decides the predecessor one arrives from (paths, nearest common dominator, reducibility); so the select has the value of the phi. A witness shows that sides which share a block break it. |
| C71 | `Verif/CodeSink`: the blocks with uses, the search along the selections with its worklist, the tests of the opcode and of the memory, the move. | `IntersectsPath` is correct by an invariant of its worklist; so each round of the search goes to a block that dominates all uses and is dominated by the old block. Moves keep validity. Runs before and after a move simulate each other: when a use is reached, the new block has been visited since the last visit of the old one, with the same operands. By induction over the moves. Witnesses show that a load is moved past a store to the same buffer, and that the search may never end. |
| C72 | `Verif/Licm`: the blocks of a loop, its preheader, the tests of the instruction and of its operands, the hoist. | Loops are entered only from the preheader through the header; so the preheader dominates the loop, and a definition outside the loop that dominates a block of it dominates the preheader. Hoists keep validity. A hoist is the inverse of a move to a later block, so runs before and after simulate each other (theory of C71, for places inside blocks). By induction over the hoists. A witness shows that a division is hoisted above the test that its divisor is not 0. |
| C73 | `Verif/BlockMerge`: all tests of `CanMergeWithSuccessor`, the replacement of the phis, the joining of the blocks, the renaming of the label everywhere. | One phi at a time: the functions before and after simulate each other, with the phi's value found in its operand on all runs below the block. Then the join: runs correspond, with the two blocks as one step; paths, dominators, predecessors and definitions correspond under renaming. By induction over the merges. |
| C74 | `Verif/DeadBranch`: constant conditions and selectors, the worklist of live blocks, the new terminators, the rewriting of phis one after the other, the blocks that are erased or emptied. | The worklist finds what is reachable with the new terminators; constants keep their values on all runs, so the new terminators go the same way. The live part of the function is then followed through the rewriting: each round leaves it alone or replaces a phi that has one predecessor (C73). A second invariant gives the labels of each phi. |
| C75 | `Verif/CombineAccess`: the five cases of `CombineAccessChain`, the sum of indices as constant or `OpIAdd`, the opcode of the result, the pass over a list of instructions. | Addresses are byte offsets in an arbitrary layout; values that satisfy the equations of the instructions before satisfy those after, with a value for each new id. Induction over the instructions visited. |
| C76 | `Verif/ControlDep`: the post-order iterator with its stack, the frontier of a node, the loop over the tree, the forward graph, `HasBlock`, `IsDependent`; on the post-dominator tree of Verif/DomTree. | The iterator visits each node of the tree once, children first (induction over the tree). The frontier lists are sound and complete for `Want` by induction over the traversal; `Want` is translated to paths with the exactness of the post-dominator tree. |
| C77 | `Verif/Divergence`: `Visit`, `EnqueueSuccessors`, the levels and sources, on the engine of C43 and the dependence graph of C76; the chain of explanations. | Termination and reasons for levels by an invariant of the engine; what is followed by a lemma about work lists in which each change leads to a new visit; exactness for straight functions by induction over the first pass; four findings by running the model. |
| C78 | `Verif/Bindings`: the whole pass: resources, order, call graph, lists per entry point and set, rounds with 32-bit numbers. | The lists are shown to be exactly the resources of the call tree in order (sorting, merging, post order of calls); rounds only raise numbers and stay below every solution, which gives termination and the least solution; a number at its limit stays stuck, which gives the exact condition for termination. |
| C79 | `Verif/DeadMembers`: finding the members that are used, new types, new indices for each kind of instruction. | Values before and after are related (`Shrunk`: the members not kept left out at all depths); reading, writing, inserting and constructing keep the relation, which is equality for types seen as a whole. |
| C80 | `Verif/Packing`: alignments, sizes, strides and offsets with 32-bit numbers, the decorations before and after. | The rules of the specifications are written down without bounds; the code's size, rounded up to the alignment after it, is the size of the rules, by mutual induction over types; the rules' offsets are valid and lowest. |
| C81 | `Verif/UnifyConst`: the trie, the keys, the loop with replacements. | The trie is a map from words to ids; an invariant relates values before and after and says that each stored id has the value its words stand for; equal words mean equal operands by the grammar. |


## Areas

For each area: the code covered, what is left out or assumed, and the deviations
from the intended behaviour that are proved as theorems (**finding**) or only noted.

### Binary (C01–C06, C50) – `source/binary.cpp`, `spirv_endian.cpp`, `operand.cpp`
All of the parser: header, instruction and operand loop, numeric type tracking,
ext-inst import table, operand pattern expansion (`spvExpandOperandSequenceOnce`,
`spvTakeFirstMatchableOperand`, mask expansion, `spvAlternatePatternFollowingImmediate`).
The generated grammar tables are a parameter; `Spec.GrammarOk` lists the facts about
them that are used. Diagnostic texts and the disassembling callbacks are not modelled.
* **Finding** `parse_byte_order_import`: string words are not converted to host order
  before decoding, so an `OpExtInstImport` in a module of foreign byte order is
  read wrongly.
* Noted: numeric types of width 0 make zero-word operands; ids are not compared
  with the bound; a header version failure is `SPV_ERROR_INTERNAL`.

### StringLit (C07) – `source/util/string_utils.h`
`MakeVector`, `AppendToVector`, `MakeString`.

### ParseNumber (C08) – `source/util/parse_number.{h,cpp}`
Integers completely; floats only up to the call of the `HexFloat` extractor. The C++
library's stream extraction is trusted, as modelled in `Model.lean` (`istream >> int`,
`std::hex`, failure and clamping behaviour).
* **Finding** `parseNumber_space`, `encodeInteger_space`: leading white space changes the
  interpretation (" -1" accepted as unsigned, " 0xff" not recognised as hexadecimal).

### BitUtils (C09), BitVector (C20), EnumSet (C17), SmallVector (C18), IList (C19) – `source/util`, `enum_set.h`
Complete classes, except debugging output. SmallVector tracks raw and constructed
slots; IList is a heap of nodes with previous/next pointers.
* **Finding** `or_result_wrong`: `BitVector::Or` reports a change for a longer operand
  even if nothing is added.
* **Finding** `movedFrom_inconsistent`: a moved-from `EnumSet` keeps a stale size.
* **Findings** `pushOwn_full`, `selfMove_result`, `insert_empty_range` (SmallVector);
  `nextNode_not_in_list`, `insertBefore_self`, `moveAssignNode_self` (IntrusiveList):
  uses that the assertions do not catch.

### Asm (C12, C14, C15) – `source/text.cpp`, `text_handler.cpp`
The whole path from text to words; the grammar and the encoding of floating-point
literals are parameters. The disassembler's string escaping is modelled for C12.
* **Findings** `comma_fault` (`word.front()` of an empty word), `opUnknown_count_wrong`,
  `namedIds_alias` ("%010" and "%8"-style aliases), `namedIds_zero`, `namedIds_overflow`,
  `padding_lost`.

### NameMapper (C16) – `source/name_mapper.cpp`
`FriendlyNameMapper` with the name construction for types and constants.
* An example shows that ids never seen by the mapper may collide with a recorded name.

### Cfa (C21–C23) – `source/cfa.h`; DomTree (C24) – `source/opt/dominator_tree.*`, `dominator_analysis.*`
All of `cfa.h`; construction, numbering and queries of (post-)dominator trees. Labels
that resolve to a null block are not modelled.
* **Finding** `traversal_roots_not_minimal`.
* Noted: the immediate dominator of the entry is the pseudo block, not null; blocks
  that cannot leave the function are absent from post-dominator trees.

### DomCheck (C41), IdCheck (C40), Layout (C39), Adjacency (C42) – `source/val`
`validate_id.cpp`, `validate_layout.cpp`, `validate_adjacency.cpp`, and the parts of
`validate.cpp`, `function.cpp`, `basic_block.cpp`, `validate_cfg.cpp` that feed them.
Each check is modelled apart from the others: an error of another check can only make
validation fail earlier.
* **Finding** `dominated_use_rejected`: in a function that never ends, structural edges of
  merge instructions make the check reject a dominated use.
* **Findings** `line_between_declarations`, `line_in_declaration`: an `OpLine` there moves the
  layout to the definitions section.
* Noted: a merge instruction that ends the module passes the adjacency check; the
  `OpTypeArray` case of the forward-reference table is dead code.

### Fold (C26, C27) – `source/opt/fold.cpp`, `const_folding_rules.cpp`
Integer and boolean scalars and vectors. Not modelled: floating point, composite
extraction/insertion/shuffles.
* **Findings** `smod_wrong`, `sdiv_narrow_wrong`, `sconvert_narrow_wrong`, `smin_unsigned_wrong`,
  `umax_signed_wrong`, `sdiv_negation_wrong`, `snegate_null_vector_wrong`, `sdiv64_faults`,
  `snegate64_faults`, `null_component_faults`.

### SpecConst (C44), Flags (C45), TargetEnv (C51), Strength (C29), NextId (C32), CompactIds (C25)
* **Findings** `specData_prefix`, `bitPattern_odd_width`, `process_untyped`;
  `split_short_name_args_wrong`; `compactIds_trailing_line`.
* Strength: the constant operand's type is not compared with the result type by the
  code; the theorem states the value semantics that result.

### PassManager (C30) – `pass_manager.cpp`, `pass.cpp`, `optimizer.cpp`
Passes are arbitrary functions. **Finding** `run_again_after_failure`.

### DefUse (C31), DeadConst (C46), DeadFunc (C47)
Histories of instruction additions, kills and operand edits on the def-use manager;
the two dead-code passes.
* **Findings** `redefinition_loses_users`, `clear_after_def_only`, `dangling_use_asserts`;
  `decorateId_dangles`, `replicate_not_idempotent`; `group_export_removed`,
  `noncall_reference_dangles`, `alias_scope_missed`, `collect_diverges`,
  `deadFunctions_asserts`.
* Noted: `DecorationManager` files `OpGroupMemberDecorate` under its member numbers.

### DataFlow (C43), Propagator (C52) – `source/opt/dataflow.*`, `cfg.cpp`, `propagator.*`
The engines, for arbitrary client analyses.
* **Findings** `echo_diverges`, `postOrder_null`; `value_change_not_propagated`: only
  changes of status reach the users of an instruction, so a client must not change a
  value without changing the status.

### Link (C36, C37) – `source/link/linker.cpp`
Id shifting, header, merging, import/export pairs. Not modelled: removal of duplicates,
comparison of types and decorations, replacement of imported ids.
* **Finding** `lines_not_shifted`.
* Noted: `DebugScope` ids are not shifted; graphs and trailing lines are dropped; a
  header bound of 0 wraps the offset; `VerifyIds` compares `unique_id`s.

### Reducer (C34, C35), Lcs (C38), EquivRel (C49)
`source/reduce/reducer.cpp`, `reduction_pass.cpp`; `source/diff/lcs.h`;
`source/fuzz/equivalence_relation.h`.
* **Finding** `reducer_not_minimal_after_cleanup`.

### Loader (C33) – `source/opt/ir_loader.cpp`, `module.cpp`, `function.cpp`, `graph.cpp`
Loading a stream of parsed instructions into the lists of a module, with attached lines and
scopes, and `ToBinary`. Opcodes are grouped as the code's tests group them; the parser
(area Binary) supplies the words, and `words_kept` links its operands to the emitted words.
Not modelled: the copy of the header, `ContainsDebugInfo` bookkeeping, the passes in between.
* **Findings** (`Verif.Loader.Example`): `no_tracking_adds_noLine`; `debug_dropped`: a
  shader debug instruction in a function outside blocks disappears; `merge_loses_scope`;
  `scope_before_variable_lost`: with the shader set a scope in front of variables, phis or
  line instructions is lost, and `DebugNoScope` is written after the terminator;
  `graph_lines_lost`, `open_graph_lost`, `second_memory_model`, `debug_moved`;
  `scope_without_debug_faults`: emission reads the first element of an empty list.

### Rules (C28) – `source/opt/folding_rules.cpp`
The 46 rules on arithmetic, bitwise, logical, comparison and select instructions and the table that
says which rules are tried on which opcode. `Sem` gives the meaning of the instructions lane by lane
(bit vectors of any width; an arbitrary field for floating-point numbers, since these rules are only
meant to hold up to rounding; comparisons are an arbitrary four-valued function, so NaN-like operands
are covered there); `Spec` says what it means that a rewriting is right: no new undefined behaviour,
and only results the old instruction may have had, in every execution consistent with the module.
Not modelled: composites, dot products, phis, stores, images, bitcasts, cooperative matrices;
creating the declarations of new constants; `IsValidResult` is a parameter.
* **Findings**: `negated_quotient_wrong`, `negated_quotient_ub`: `-(x / c)` → `x / -c` is wrong for
  the least integer and introduces undefined behaviour for `c = 1`; `double_negative_quotient_wrong`:
  `(-x) / (-y)` → `x / y`; `select_division_wrong`: `8 / (c ? 2 : 0)` executes both divisions;
  `reassociate_vector_fault`, `div_negate_half_fault`: assertions that fail;
  `redundant_zero_ill_typed`: an `OpCopyObject` between integers of different signedness;
  `mul_div_ignores_no_contraction`.

### HexFloat (C10, C11) – `source/util/hex_float.h`
The format traits, printing, parsing, `castTo` and `OpQuantizeToF16` folding
(`const_folding_rules.cpp`). Integer types wrap as in C++, loops that may not end are partial
fixpoints. `Spec` gives the rational number a bit pattern stands for and what rounding means.
Not modelled: stream state other than the characters, decimal text (left to `std::istream`),
`E8M0` and `MXInt8` text.
* **Findings**: `castTo_carry_lost` (a carry out of the fraction halves the result);
  `castTo_subnormal_not_nearest`, `castTo_subnormal_not_up` (subnormal results are cut off);
  `castTo_toZero_infinity`; `castTo_top_binade` (E4M3 256 becomes 448, E2M1 4 becomes 6);
  `castTo_exponent_wraps`, `castTo_bias_wraps` (signed types too narrow); `castTo_e8m0_loops`
  (an endless loop); `text_small_subnormal_lost` (FP4/FP6 subnormals do not round-trip);
  `parse_exponent_wraps`; `quantize_keeps_subnormals`.
* Noted: `NaN_pattern` of float is one hexadecimal digit short.

### ScalarEvo (C48, C53, C54) – `source/opt/scalar_analysis*.{h,cpp}`
Modelled: the nodes, `Create*`, `SENodeSimplifyImpl` with all four stages, the sign analysis and
the division. Nodes are trees because the analysis keeps one object per node. The order of
children (creation order) and of the maps keyed by pointers (addresses) are parameters about which
nothing is assumed. Signed 64-bit overflow and the use of an uninitialised pointer are outcomes of
their own. Not modelled: building nodes from instructions, `pretend_equal_`.
C48 is false of the code, so it is proved for a class of expressions given by four
conditions (`Spec.Supported`, `ScaledFromZero`, `NoLostNegation`, `NoLostLoop`). Each is shown to be
needed. **Findings**: scaling a recurrent expression does not scale its offset
(`simplify_scaled_offset_wrong`); the sign of a negated product is dropped
(`simplify_negated_product_wrong`), and that of a negated unknown when recurrent expressions are
folded (`simplify_lost_negation_wrong`); when the steps of a loop cancel the other terms are dropped
(`simplify_lost_loop_wrong`); products containing recurrent expressions are treated as sums
(`simplify_product_becomes_sum`, `simplify_square_becomes_double`); the offset of a recurrent
expression with step zero is lost (`simplify_zero_step_loses_offset`); an uninitialised pointer is
read (`simplify_cant_reads_uninitialised`). C53: "not greater or equal" is reported for values that
may be zero (`greater_or_equal_wrong`), and the analysis ignores wrapping
(`greater_than_zero_wraps`). C54: line 948 multiplies with the wrong factor
(`divide_right_product_wrong`).

### Disasm (C13) – `source/disassemble.cpp`, `parsed_operand.cpp`
Modelled: the text of operands, instructions, comments, sections and the header, for the trivial
name mapper. Not modelled: colours, nested indentation, reordered blocks, friendly names (C16).
`Spec.Agree` says what the tables of parser, assembler and disassembler have in common;
`Spec.Faithful` lists the instructions text can express. The proof relates the state of the parser
to that of the assembler (`CtxRel`, `StRel`): the ids of the first pass are renamed, those of the
second are kept. The text of floating point numbers is a hypothesis (`FloatOk`), its round trip is C10.
* **Findings**, each a theorem in `Disasm/Example.lean` over a grammar for which `Agree` is proved:
  bytes after the end of a string are lost (`roundtrip_padding`); narrow numbers with
  high bits set are printed with them and rejected (`roundtrip_narrow`); a zero mask without a name is
  printed as nothing (`roundtrip_nameless_mask`: `CooperativeMatrixReduce`); the assembler takes one
  name only for a memory access that is not optional (`roundtrip_memory_access`:
  `OpCooperativeMatrixLoadTensorNV`); with the comment option a line break in the string of a
  decoration ends the comment, so that the rest of the string becomes instructions
  (`roundtrip_comment`).

### Unroll (C55, C56) – `loop_descriptor.cpp` (trip count), `loop_unroller.cpp`
Modelled: reading the constants, the trip count with its 64-bit arithmetic (overflow is a distinct
outcome), the residual bound, which of the three shapes the unroller chooses, and the control flow of
each shape around an arbitrary loop body. Not modelled: finding loops, copying and renaming single
instructions. `iterations_exact_partial` is an equivalence: the count is right exactly when the last
step does not wrap.
* **Findings** (theorems in `Unroll/Example.lean`, `residual_too_long` in `Props.lean`): wrapping
  and endless loops get a number; so do loops whose comparison and constants differ in signedness;
  only the low word of a 64-bit step is read; overflow in `GetIterations`; the polarity of the branch is
  ignored; with `<=` or `>=` the residual loop *always* runs too long, so that partial unrolling by a
  factor that does not divide the number of iterations executes extra bodies; effects of the header in
  the iteration that leaves are lost by full unrolling; a factor of 1 makes the pass report failure.

### Ssa (C57) – `source/opt/ssa_rewrite_pass.{h,cpp}`
Modelled: the whole rewriter on blocks of stores, loads and other instructions, with fuel for its
recursion. Not modelled: which variables qualify, variables holding pointers, debug values,
decorations. `Cert.lean` shows that *any* solution of the equations of reaching definitions keeps all
values on all paths; `Inv.lean` to `Process.lean` show that the run keeps an invariant (equations hold up to removed
candidates); `Final.lean` reads a solution off the last state.
* **Findings** (theorems in `Ssa/Example.lean`): `ssa_store_lost` – when a trivial phi is removed,
  `ReplacePhiUsersWith` records its replacement in every block that used it, also in a block that has since
  stored to the variable, so the store is lost and a valid function computes another value;
  `ssa_stale_load` – with an unreachable predecessor a load can be replaced by a removed candidate, an id that
  nothing defines. The theorems ask for exactly the absence of these two, which the model reports.

### Vn (C58) – `value_number_table.cpp`, `local_redundancy_elimination.cpp`, `redundancy_elimination.cpp`
Modelled: `AssignValueNumber` in full (the list of combinators, own numbers, copies, phis of one value,
keys with commutative normal form, decorations), the order instructions are numbered in, and both
passes. What an instruction yields may depend on the whole past unless the SPIR-V specification makes
it a function of its operands (`Functional` in `Spec.lean`). Not modelled: `IsReadOnlyVariable` (given with each load), hashing,
decorations as more than one value per id. The difficulty is that members of a class need not dominate one another
(phis of one value), so the induction follows values through keys (`Ev` in `Values.lean`).
* **Findings** (theorems in `Vn/Example.lean`): `untyped_variables_merged` – `OpUntypedVariableKHR` is a
  combinator and not among the opcodes with a number of their own, so two local variables of the same
  type become one; `volatile_loads_merged` – volatile loads of read-only storage are merged, contrary to the comment
  in the code. The theorems exclude exactly these (`Clean`), hence the suffix.

### BlockLayout (C59) – validate_explicit_layout.cpp

Modelled: `IsAlignedTo`, `AlignTo`, `HasImproperStraddle`, `GetAlign`, `GetSize`, `ContainsMatrix`,
`GetStructMembers` (stable sort by offset), `CheckStructLayout`, `CheckArrayLayout` with the
early stop modulo 16, `CheckMatrixLayout`, `CheckLayout`; all arithmetic modulo 2^32. A type is
the tree of its definition with its decorations. Not modelled: messages, caches (they only
remember successes under all arguments), the option `skip_block_layout`, `Run` (which types are
checked, in which mode) and `CheckNoLayout`.

The specification (`Spec.lean`) gives the address of the part at each access path in unbounded
arithmetic, the alignments of the Vulkan text and the rules as a predicate; it shares only the
types and `containsMatrix`, `isRt`, `isAggr` with the model. `FineBlock` holds the shape rules other
passes enforce (widths, dimensions, runtime arrays only as members of the block) and the
assumptions: nothing above 2 GiB, everything known.

Findings:
- `overflow_overlap`: sizes wrap. `float a[2^28 + 1]` with stride 16 gets size 4; a member at
  offset 16, inside the array, is accepted.
- `spec_length_overlap`: an array whose length is a specialisation constant has size 0, so the
  next member may have the same offset although they overlap for every length.
- `runtime_straddle`: with relaxed block layout only element 0 of a runtime array is checked, a
  vector in element 1 may straddle. The same array with a known length is refused.
- `relaxed_struct_misaligned`: with relaxed block layout a nested struct gets the relaxed
  alignment of its vectors; Vulkan relaxes only vectors.
- `marker_stride`: the literal `ArrayStride` 2^32 - 1 is taken for one not known and accepted.
- `empty_order`: with members of size 0 the result depends on the order of declaration.

### LoopDep (C60) – loop_dependence.cpp, loop_dependence_helpers.cpp

Modelled: all of both files except debug output: bounds, the tests for no, one and several
induction variables, Stein's algorithm, the rounding to `float` in the crossing test, constraints and
their intersection, propagation, the delta test, the partition, `GetDependence`. On top of the
model of the scalar analysis (`Verif/ScalarEvo`). A subscript is the expression `AnalyzeInstruction`
gives for it; what the loop descriptor finds out about a loop is the record `LoopInfo`. Orders of sets
and of `std::partition` are parameters (`Sched`), the theorems hold for all of them.

The specification (`Spec.lean`) says which iterations a counted loop executes and which memory a
pointer points to; expressions have the value given by `ScalarEvo.Spec.eval`, in unbounded integers.
Source trip minus destination trip is the distance.

`independent_sound_partial` and `distances_true_partial` hold for nests of any depth of loops from 0 by
1 which are tested first, with limits that are linear in unknown values or in induction variables
(triangular nests), subscripts that are linear in induction variables with constant coefficients, any number of
subscripts, coupled or not; coupled ones must depend on one loop each (no propagation), and pointers must be variables or elements of
variables. `gcd_test_sound`, `groups_*` and `delta_rounds` have no such restriction.

Findings (each a theorem in `Example.lean`: the analysis says independent, two iterations with the same
memory are given):
- `unknowns_wrong`: `a[n]` and `a[m]` – different expressions without induction variables are taken to be
  different values. `downwards_wrong`: `a[n - i]` and itself.
- `cancelled_wrong`: `a[i][i - i + 5]` and itself – removing the recurrent term of a constant gives 0.
- `negative_wrong`, `fromFive_wrong`: loops which do not start at 0; bounds are values of the induction variable, and
  are compared with numbers of iterations.
- `bottom_wrong`: loops tested after the body execute one iteration more than the bound says.
- `stretched_wrong`: with an unknown value, a difference of subscripts is compared with a number of
  iterations without division by the coefficient.
- `kinds_wrong`: `OpInBoundsAccessChain` is not recognised as an access chain and counts as a different variable.
- `nested_wrong`: an access chain of an access chain against the whole variable.
- Wrong vectors: `signs_wrong` (a distance is propagated with the wrong sign), `halfway_wrong` (`a[i]` and
  `a[1 - i]` get distance 0).
- Null pointers: `three_distances_null` (the intersection of a distance with the empty constraint is null),
  `unknown_trips_null` (`a[i]` and `a[3]` in a loop up to an unknown `n`).

### Robust access (C61) – `Verif/Robust`

Modelled: `ProcessAFunction` and `ClampIndicesForAccessChain` with everything they call, on the pointers which a
function makes, in order. New instructions are expressions which stand where they are used. Not modelled: running out
of ids, the import of `GLSL.std.450`, `IsCompatibleModule`, texel pointers (which the code leaves alone), and that new
types may need capabilities.

`Fits` is a valid module and one of its executions: types of variables are valid (arrays have elements, runtime arrays
are the last members of structures), pointers are made before they are used, the types of pointers are right.
`pointers_in_bounds_partial`, `in_bounds_unchanged_partial` and `pointee_kept` hold for every such module and
execution, `pass_succeeds_partial` for those without `OpConstantNull` among indices and lengths.

Findings, each with a theorem:
- `narrow_wrong`: a constant index of an 8 or 16 bit unsigned type is read zero extended, so that 200 is left alone in
  an array of 300 elements, while access chains treat it as -56.
- `empty_wrong`: an empty runtime array gives the upper bound 2^31 - 1, and no index is clamped.
- `null_wrong`: the index `OpConstantNull` gives a constant which is not an `IntConstant`, and the code uses the null
  pointer.

Not a theorem, since capabilities are not modelled: an 8 or 16 bit index into a larger array is widened to a type which
the pass declares without the capability `Int16`.

### Conditional constant propagation (C62) – `Verif/Ccp`

Modelled: `VisitInstruction` with all it calls, `Initialize`, `ReplaceValues`, run by the model of the propagator
(C52). Folding is a parameter, assumed to be right (`FoldSound`): C26 to C28 are about folding itself. Not modelled: running out of
ids (`kFailed`), decorations and names, processing of several functions in turn.

`constants_right_partial`, `executed_simulated_partial` and `behaviour_kept_partial` hold for every valid function and every
meaning of its other instructions, if selectors of switches have at most 32 bits. `Defined` (no execution reads an id
before it is defined) is what dominance ensures. `pass_completes` needs types to be respected, and that folding is not
lost when more operands become known.

Findings:
- `switch64_wrong`: the test for selectors of more than 32 bits looks at the number of words of the operand, which is
  an id and always has one. So 64-bit selectors are compared by their low words, and a phi gets the constant
  of an edge which is not taken.

### Vector dead code elimination (C63) – `Verif/VectorDce`, `Verif/SsaExec`

`Verif/SsaExec` is a semantics of SSA code for passes that replace ids: it has no trace of any pass. Dominance is defined
by paths of instructions; `dom_after` is the fact that makes replacement sound.

Modelled: `FindLiveComponents` with all the marking functions, `RewriteInstructions`, `RewriteInsertInstruction`. A
`BitVector` is a number (the class itself is C20). Debug instructions, names and decorations are left out. A deleted instruction
stays in the code of the model; `deleted_unused` says that it is pure and that nothing uses it. `Typed` is what validation
ensures about the operands of vector instructions; `combinator` is the table of instructions without effects, which
may read memory.

Findings:
- `long_vector_wrong`: the code takes 16 to be the largest number of components of a vector (`vector_dce.h:31-33`). The validator
  accepts any number with the capability `LongVectorEXT`. Then components from 16 on are never live, and an insertion
  into one of them is dropped although the vector is stored.
- Not a theorem, since memory is a parameter here: `OpLoad` is in the table whether or not it is volatile, so a volatile load none
  of whose components is used is deleted.

### Local load/store elimination (C64) – `Verif/LocalElim`, `Verif/SsaExec/Replace`

`Replace.lean` is independent of the pass: ids are replaced by ids with the same value, some instructions are removed,
memories are related by a relation the pass chooses. It gives both directions of the simulation, and that the result
is in SSA form.

Modelled: one function; `HasOnlySupportedRefs`, `GetPtr`, `GetBaseAddress`, and the scan with `var2store_`, `var2load_`,
`instructions_to_kill` and `instructions_to_save`. Simplifications: `HasOnlySupportedRefs` looks at the uses before the pass;
recursion along pointers has fuel, of which `WellFormed` asks that it is enough; `OpPtrAccessChain` and `OpImageTexelPointer`
are other instructions (a variable with such a use is refused); initializers are the initial memory;
names, decorations and the memory operands of loads and stores are left out. `Addressing` is logical addressing, semantically: values are clean if they give no access
to a hidden variable; each kind of instruction keeps values clean. It is shown to be satisfiable by an example with partial accesses.

Findings:
- `stored_address_wrong`: `HasOnlySupportedRefs` accepts an `OpStore` whose *object* is the variable. With relaxed logical addressing
  (`--before-hlsl-legalization`, `--relax-logical-pointer`) the address can be stored to a variable, loaded again and written through.
  The pass does not see the write, and replaces a later load by the older value. `instruction.h` claims that
  relaxed addressing implies no aliasing of function variables, but nothing checks it here.
- Not a theorem, since memory operands are not modelled: `Volatile` on a load or store is not looked at, so volatile accesses
  to function variables are removed.

### Local single store elimination (C65) – `Verif/SingleStore`

Modelled: one function; all of the pass but the rewriting of debug instructions. The users of an id are those in the function
as changed so far. Dominance is a parameter assumed to be right (`DomSound`; see C14, C15). Recursions along pointers have fuel, of which `WellFormed`
asks that it is enough. Names, decorations and memory operands are left out. `OpImageTexelPointer` reads memory; other
instructions may read everything and change what is not hidden.

Findings:
- `stored_address_wrong`: an `OpStore` whose *object* is the variable counts as the store to it, since `FindSingleStoreAndCheckUses`
  looks at the opcode of the user only. The comment there says that variables as values of stores are not allowed in valid code, but
  relaxed logical addressing, which the pass claims to handle, allows it. Loads of the variable are then replaced by its address.
- Not a theorem, since memory operands are not modelled: `Volatile` is not looked at.

### Aggressive dead code elimination (C66) – `Verif/Adce`

Modelled: one function of a shader without variable pointers, on which `AggressiveDCE` is run: `InitializeWorkList`, `ProcessWorkList`,
`MarkBlockAsLive`, `AddStores`, `AddBreaksAndContinuesToWorklist`, `KillDeadInstructions`, and `StructuredCFGAnalysis::AddBlocksInFunction` as far
as it is used. Not modelled: types, names, decorations, debug instructions, the removal of module-scope values and functions,
`CFGCleanup` (blocks the result no longer reaches stay in the model; the theorems only speak about what executions reach).
The structured order of the blocks is given. `Structured` states the rules of structured control flow with constructs as ranges of this order;
that `ComputeStructuredOrder` gives such ranges is assumed, and the pass assumes it as well (it walks forward in the order to the merge block).
Which addresses an instruction with an effect reads through is part of the instruction (`reads`); `Fits.frame` assumes that it sees own variables in no other way.
Walks along containing constructs, access chains and their users are bounded by sizes that are proved or chosen large enough.

Findings:
- `endless_loop_removed`: a loop without effects is removed even if nothing ever leaves it, so a function that never returns may return afterwards.
  Hence `nothing_added_partial` asks that the function can always finish.
- A merge block of a removed construct that ends in `OpUnreachable` is made to return; this too adds executions, but only where the behaviour was undefined.
- `GetBranchForNextHeader` on the header of a loop that is directly inside a selection looks for the header of the *header* of that selection, so the selection itself is skipped.
  The proof shows that the selection is marked nevertheless, since the merge block of the loop is marked and lies in it.
- A kept instruction may be kept only because it takes an address of a variable that something reads (`AddStores` assumes that unknown users store); this is the last case of `kept_for_a_reason`.

### Flattening decoration groups (C67) – `Verif/Flatten`

Modelled: all of the pass. `Valid` is what the validator asks of decoration groups. Debug information is left out. The maps from groups to uses are
functions of the list of annotations.

Findings:
- `member_name_hangs`: the loop that removes the names of groups moves its iterator only at an `OpName`. On *every* module with a decoration group and an
  `OpMemberName` the pass never ends. The unit tests have no `OpMemberName`.
- The validator of this repository refuses an `OpDecorateId` on a group, although its message lists it as allowed; the pass would leave it behind with a target that is gone.

### Private variables made local (C68) – `Verif/PrivLocal`

Modelled: the decision, the move, the update of types (storage classes only) and of interfaces. Not modelled: names, decorations and debug information
(accepted as uses), running out of ids. In the machine memory holds no addresses (logical addressing). A variable without initializer holds at first
a value that depends on its id alone, before and after the pass.

Findings:
- `value_lost`: nothing checks that the function is entered once. A module whose function counts in a private variable and is called twice emits
  1, 2 before the pass and 1, 1 after it: the variable is initialized anew by each activation. The description of the pass does not mention this.
- Uses outside of blocks are not looked at, so a variable that is the initializer of another variable would be moved. Initializers are constants in
  the model (logical addressing does not allow such a variable here).

### Locations of interfaces (C69) – `Verif/Locations`

Modelled: `ValidateLocations` with all it calls, uint32_t overflow included; types are trees, decorations are lists. Hypotheses on placements (`Fits`):
types that may have locations, components of at most 3 and fewer than 2^29 locations, all of which other checks of the validator or limits of devices
see to; decorations of the same kind on a variable agree (`Agree`, checked in validate_decorations.cpp). In the specification matrices and structures
take all components of their locations, and an array whose length is a specialization constant counts as one element, as in the code.

Findings:
- `array_member_missed`: for a block member that is an array whose elements have four components or more, only the first element is marked. The comment
  in the code speaks of "a hole" for 3- and 4-element 64-bit vectors; arrays of plain `vec4` (and of `dvec2`) fall into it as well, because the test is
  `num_components < 4`. A block with `vec4 a[2]` at location 0 and `vec4 b` at location 1 is accepted.
- `array_of_arrays_missed`: for a variable that is an array of arrays only the first element of each inner array is marked, because
  `NumConsumedComponents` looks through all arrays. `float a[2][2]` at location 0 and `float b` at location 1 are accepted.
- `high_location_missed`: from location 4096 on conflicts are not looked for (a limit the code states).
- `dropped_error`: the result of the recursive calls of `NumConsumedLocations` for elements is ignored, so the error "Invalid type to assign a location"
  is not returned for an array of arrays.

### If-conversion (C70) – `Verif/IfConv`

Modelled: `IfConversion::Process`, `CheckBlock`, `CheckPhiUsers`. Not modelled: the replacement of phis whose two values have the same value number and
the moving of instructions for it (`HoistInstruction`, `CanHoistInstruction`); the widening of the condition for vectors. A select takes over the id of
its phi, which stands for `ReplaceAllUsesWith`. Dominators, the nearest common dominator and blocks of ids are a parameter with a specification
(`Right`); C13 is about how dominators are computed.

Finding, `shared_side_wrong`: the pass takes the value that comes from `inc0` for the one of the true side if the target of the true edge dominates
`inc0`. That the target can also be entered from the false side is not looked at. In

    H: OpSelectionMerge M; OpBranchConditional c A B
    B: OpBranchConditional c2 A M
    A: OpBranch M
    M: x = OpPhi [1 from A] [2 from B]

`x` becomes `OpSelect c 1 2`, which is 2 instead of 1 if `c` is false and `c2` true. `runs_kept_partial` therefore assumes that no block can be reached
from both sides (`SidesApart`).

### Sinking of loads and access chains (C71) – `Verif/CodeSink`

Modelled: `SinkInstruction`, `FindNewBasicBlockFor`, `IntersectsPath`, `ReferencesMutableMemory`, `HasPossibleStore`; the order in which `Process` tries
instructions is any order. Not modelled: `IsReadOnlyPointer`, `GetBaseAddress` and `HasUniformMemorySync`, whose results are parameters.
Functions and runs are those of C70.

`runs_kept_partial` assumes that the instructions the pass may move are steady: one outcome, given by the operands, no effect. That is so for access
chains and for loads of memory nothing writes. It is not assumed that the pass picks them well; that it does not is the first finding.

1. `possible_store_never`, `stored_load_moved`: `HasPossibleStore` calls `WhileEachUser`, which returns whether the function returned true for *all*
   users. A load of the variable is a user that is not a store, and the question is asked only for variables that have a load. So the answer is
   always no, and a load of a writable buffer (`BufferBlock` in the storage class Uniform) is moved past a store to it: the shader computes something
   else. The test `DontMoveBecauseOfStore` does not see it.
2. `unreachable_loop_hangs`: if both sides of a selection leave the function, its merge block cannot be reached. The search goes to it nevertheless
   when there are no uses, and if it is a loop of one block (`OpLoopMerge X M; OpBranch M`), whose only predecessor is itself, the search goes
   round for ever. `search_ends_partial` assumes that merge blocks can be reached.

### Hoisting out of loops (C72) – `Verif/Licm`

Modelled: `HoistInstruction`, the loop of `AnalyseAndHoistFromBB`, `FindLoopPreheader`, `ShouldHoistInstruction`, `AreAllOperandsOutsideLoop`, the
blocks of a loop; hoists come in any order. Not modelled: the list of safe opcodes and `IsReadOnlyLoad` (parameters), the making of a preheader for
loops that have none, the analysis of dominators (assumed right: `Right`; see C14 and C15). `Closed` says that nothing below the merge block of a loop
goes back into it, which is a rule of structured control flow. Functions and runs are those of C70 and C71.

`runs_kept_partial` assumes that the instructions the pass may hoist are steady: one outcome for all operands, no effect. One finding says why.

`guarded_division_hoisted`: `IsOpcodeCodeMotionSafe` lists `OpUDiv`, `OpSDiv`, `OpUMod`, `OpSRem` and `OpSMod`, whose behaviour is undefined if the
divisor is 0. The pass does not ask whether an instruction is reached in every round of the loop, or whether the loop body is entered at all. So
`if (k != 0) x = n / k;` in a loop becomes a division before the loop, done also when `k` is 0: a function with only defined runs becomes one that
is undefined from the start. The same goes for read-only loads through access chains with indices that are tested before.

### Merging of blocks (C73) – `Verif/BlockMerge`

Modelled: `CanMergeWithSuccessor`, `MergeWithSuccessor`, `EliminateOpPhiInstructions`; merges come in any order. Not modelled: debug lines and
scopes, names and decorations, the analysis that finds the switch around a block (a parameter, any value), reachability (a parameter that may say
yes only for reachable blocks). Functions and runs are those of C70 and C71; `Spec.Valid` adds that the entry is listed.

`runs_kept` relates runs both ways; a run that is about to enter a block that is gone has no counterpart, its next step has. `results_kept` says
the same of results. `structured_kept` has the two rules of structured control flow that the tests of the pass are for and that can be said of merge
instructions alone; `merged_iff` gives all tests. The rule that cases are dominated by their switch is in `merged_iff` only.

### Elimination of dead branches (C74) – `Verif/DeadBranch`

Modelled: `GetConstCondition`, `MarkLiveBlocks`, the terminators of `SimplifyBranch`, `MarkUnreachableStructuredTargets`, `FixPhiNodesInLiveBlocks`
(all cases of dead continue targets), `EraseDeadBlocks`. Parameters with any value: which selection merges are left (`SimplifyBranch` moves some to
other branches), whether a back edge keeps its branch, whether a switch has nested breaks and stays a switch with one target. Not modelled:
`FixBlockOrder`, debug information, `OpUndef` creation.

`runs_kept` needs no more than a valid function and constants that mean what they are taken for. `result_valid` also needs that loops have a back edge
their continue target dominates, and that all `OpUndef` are outside of functions. **Finding** (`local_undef_dangles`): the pass keeps a value that is
an `OpUndef` for a dead continue target, even when that `OpUndef` is in a block that is erased; the phi then names an id that has no definition.
`reachable_valid` holds without these conditions. Missing: that headers dominate the merge blocks of the selection merges that are left.

### Combining access chains (C75) – `Verif/CombineAccess`

Modelled: all of `combine_access_chains.cpp`. Addresses are integers, types arrays (vectors, matrices), structures and leaves, with any sizes and
offsets. The values of ids at one moment of a run are an assignment that satisfies the equation of each instruction (single assignment). Not modelled:
the reuse of an existing constant for a sum, running out of ids.

For logical addressing (`OpAccessChain` only) `addresses_kept`, `types_kept` and `no_chain_of_chains` hold for the whole pass. For pointer access chains
`step_kept_partial` and `step_typed_partial` need that the element operand steps over the array the first chain ends in. **Findings**:
`struct_indexed_by_sum`: the test for structures looks at the type the first chain leads to instead of the type its last index is applied to, so a
structure can get an `OpIAdd` as index (invalid); `stride_of_base_lost`: only the `ArrayStride` of the pointer in the middle is looked at, a stride of the
base of the first chain is then used for both element operands; `sum_overflows`: the sum of two constants wraps around in the type of the first.

### Control dependence (C76) – `Verif/ControlDep`

Modelled: `control_dependence.cpp` without printing and comparing, `PostOrderTreeDFIterator`, `CFG::preds`. The tree is the one built by the model of
`dominator_tree.cpp` (`Verif/DomTree`). The steps of the iterator are counted; the theorem says that from some number on the result is the same. The
order of a `std::unordered_map` is not used by the statements.

`graph_exact` is the whole property; `avoidable` and `independent` say what a dependence means. **Finding** `no_exit_crashes`: for a function without an
exit (two blocks that branch to each other, valid for kernels) the first node of the traversal is the pseudo exit, whose parent is a null pointer; an
`assert` says so, a release build goes on. The linter computes the graph for each function without looking.

### Divergence lint (C77) – `Verif/Divergence`

Modelled: `divergence_analysis.cpp` and, of `lint_divergent_derivatives.cpp`, the test for a warning and the walk along the sources. A function is given by
what the analysis asks about it (kinds of instructions, users, phis of a block, dependence graph, conditions, chains of unconditional branches, order of
the first visits). Not modelled: the text of messages, several functions analysed with one object, that divergence of levels says something about values of
threads (`Flows` is the analysis' own notion of flow, as its header describes it).

`analysis_ends`, `levels_justified` and `warnings_justified` hold for all functions. `flows_followed_partial` says what is followed in all functions,
`levels_exact_partial` that nothing is missed in functions without loops, flat inputs and parameters, `explanation_ends` that explanations end where there
are no flat inputs. **Findings** (all by running the model): `phi_missed`: when a block becomes divergent, the phis *of* the block are enqueued instead of the
phis that name it, so a phi after a branch on a loop-carried divergent value stays uniform; `condition_skipped`: in a partially uniform block the condition of
the branch is not looked at, so reconvergence after it is not seen; `parameter_missed`: parameters are meant to be divergent, but are never visited since they
are in no block; `explanation_endless`: with a flat input the sources can form a circle and `PrintDivergenceFlow` prints for ever.

### Binding conflicts (C78) – `Verif/Bindings`

Modelled: all of `resolve_binding_conflicts_pass.cpp`, with the def-use and decoration managers given by the users and decorations of each variable, and hash
maps by the order in which they are walked through (arbitrary). `std::stable_sort` is insertion, `std::merge` and `std::unique` are as the standard says.
Assumed (`Ok`): distinct ids, no recursive calls (a rule of SPIR-V), 32-bit numbers; no decoration groups (as the pass says).

`lowest`: the result is the least assignment that does not lower numbers and keeps the order strictly, so it does not depend on the order of containers.
`ends_iff`: the pass ends exactly when such an assignment exists in 32 bits; `ends_with_room` is a simple sufficient condition.
**Finding** `endless`: with two resources at binding 0xFFFFFFFF the number wraps to 0 in each round and the pass never ends (no such numbers exist, but the
pass should fail instead). `recursion_missed`: with recursive calls (invalid) resources of an entry point are missed, so the assumption is needed.

### Members that are not used (C79) – `Verif/DeadMembers`

Modelled: `eliminate_dead_members_pass.cpp` but for the test for the Shader capability and the report of changes. Instructions carry the types the pass asks
about; indices of access chains are values of constants (`UpdateAccessChain` makes new constants for them, which is not modelled). `std::set` is a sorted list,
the recursion over types has a depth. Assumed (`Ok`): types are not recursive, paths and members exist, elements of vectors and matrices are no structures.

The theorems are about each kind of instruction and all related values, not about whole runs of a program: `parts_kept` (extracts, access chains; reading and
writing), `spec_parts_kept`, `insert_kept`, `insert_removed`, `construct_kept`, `length_kept`, `members_follow`, `groups_follow`, `seen_same`, `seen_type`.
**Findings**: `insert_dangling`: an insert into a member that is removed is killed although its result is used; its uses refer to an id without definition
(`insert_removed` says which value should replace it). `untyped_broken`: the structure operand of an access chain on an untyped pointer is not marked, its members
are removed and the indices stay. `payload_shrunk`: structures of variables shared with other shaders (ray payloads) lose members.

### Packing of structures (C80) – `Verif/Packing`

Modelled: `struct_packing_pass.cpp` but for finding the structure by its name and parsing the rule's name. Types are trees with sizes of components and lengths
of arrays as numbers (from the type manager and constants). The eight rules behave as four. Assertions are left out, as in release builds.

`packs`: offsets are exactly those of `Spec.layout` (`layout_valid`, `layout_lowest`, `valid_apart`) for std140, std430 and scalar rules, row-major matrices, types as
in `Good` and structures below 4 GiB, or the pass fails since an offset would be raised. `hlsl_rows`: HLSL rules for scalars and vectors of 32-bit components; `hlsl_crossing`: any member that would cross a row begins one.
`never_raised`: all rules and types.
**Findings**: `scalar_matrix_overlap`: with scalar rules a matrix has the size of a column, the next member lies within it. `column_major_overlap`: column-major
matrices that are not square are laid out as row-major ones and overlap with the next member. `half_matrix_wrong`: matrices of 16-bit floats are wrong with std140.
`hlsl_double_fails`: the size of an array of one double wraps around. `interleaved_missed`: the pass stops at the first decoration that is not an offset and reports success.
`bad_member`: an index of a member that does not exist (invalid) is read out of bounds.

### Unifying constants (C81) – `Verif/UnifyConst`

Modelled: all of `unify_const_pass.cpp`. Operands are ids or words; `GetAnnotations` is a flag; `ReplaceAllUsesWith` is a map of ids applied when an instruction is
reached, which is the same since no instruction refers to a later constant (`Ok.noForward`); uses outside of the list are replaced by the same map.
Values are those of arbitrary functions of opcode and operands (`Spec.eval`), so the theorem is for every meaning of the opcodes and every specialization.
Assumed (`Ok`): ids are not 0 and unique, definitions before uses, and which operands are ids follows from the opcode, the number of operands and the literals.
OpName of removed constants (which the pass moves to the constant that stays) is not modelled.
