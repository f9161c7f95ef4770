{
 "claims": [
  {
   "property": "C01",
   "status": "proved",
   "theorems": [
    "Verif.Binary.parse_total"
   ],
   "note": "No out-of-bounds read, no failed assertion, no unbounded loop, for every word sequence; under Spec.GrammarOk, a list of facts about the generated grammar tables (which are not modelled)."
  },
  {
   "property": "C02",
   "status": "proved",
   "theorems": [
    "Verif.Binary.parse_tiles"
   ],
   "note": "Instructions tile the module and operands tile each instruction."
  },
  {
   "property": "C03",
   "status": "partial",
   "theorems": [
    "Verif.Binary.parse_byte_order_partial",
    "Verif.Binary.Example.parse_byte_order_import"
   ],
   "note": "Proved for modules without OpExtInstImport; false of the code for modules with it (parse_byte_order_import): string words are decoded without converting them to host order."
  },
  {
   "property": "C04",
   "status": "proved",
   "theorems": [
    "Verif.Binary.parse_ids"
   ],
   "note": "Every module the parser accepts."
  },
  {
   "property": "C05",
   "status": "proved",
   "theorems": [
    "Verif.Binary.parse_feed",
    "Verif.Binary.parse_prefix"
   ],
   "note": "Callbacks stop at the first error; truncating a module after some instruction yields the same callbacks for the kept part."
  },
  {
   "property": "C06",
   "status": "proved",
   "theorems": [
    "Verif.Binary.parse_header"
   ],
   "note": "Acceptance iff the header conditions hold."
  },
  {
   "property": "C07",
   "status": "proved",
   "theorems": [
    "Verif.StringLit.makeVector_represents",
    "Verif.StringLit.appendToVector_append",
    "Verif.StringLit.makeString_spec",
    "Verif.StringLit.makeString_makeVector",
    "Verif.StringLit.makeVector_prefix_injective",
    "Verif.StringLit.makeVector_makeString"
   ],
   "note": "Encoding, decoding, both round trips and injectivity for all byte strings / word sequences."
  },
  {
   "property": "C08",
   "status": "proved",
   "theorems": [
    "Verif.ParseNumber.encodeInteger_spec",
    "Verif.ParseNumber.parseNumber_spec",
    "Verif.ParseNumber.integerText_functional",
    "Verif.ParseNumber.literal_functional",
    "Verif.ParseNumber.encodeInteger_fail",
    "Verif.ParseNumber.encodeInteger_status",
    "Verif.ParseNumber.parseNumber_space",
    "Verif.ParseNumber.encodeInteger_space"
   ],
   "note": "All texts and all integer types of any width. Relies on a model of the C++ library's stream extraction. Texts beginning with white space are outside the claim; two theorems record what happens to them."
  },
  {
   "property": "C09",
   "status": "proved",
   "theorems": [
    "Verif.BitUtils.setBits_spec",
    "Verif.BitUtils.countSetBits_spec",
    "Verif.BitUtils.isBitAtPositionSet_spec",
    "Verif.BitUtils.mutateBits_spec",
    "Verif.BitUtils.setHighBits_spec",
    "Verif.BitUtils.clearHighBits_spec",
    "Verif.BitUtils.zeroExtendValue_spec",
    "Verif.BitUtils.signExtendValue_spec",
    "Verif.BitUtils.lsb_spec"
   ],
   "note": "All functions of bitutils.h except BitwiseCast (memcpy); every width."
  },
  {
   "property": "C10",
   "status": "proved",
   "theorems": [
    "Verif.HexFloat.text_round_trip",
    "Verif.HexFloat.text_injective",
    "Verif.HexFloat.text_round_trip_small",
    "Verif.HexFloat.text_small_subnormal_lost"
   ],
   "note": "Every bit pattern of the 8-, 16-, 32- and 64-bit formats, NaNs and infinities included; FP4/FP6 (beyond the property) round-trip except for subnormals, and that exception is proved."
  },
  {
   "property": "C11",
   "status": "partial",
   "theorems": [
    "Verif.HexFloat.castTo_rounds_partial",
    "Verif.HexFloat.castTo_truncates",
    "Verif.HexFloat.castTo_in_range",
    "Verif.HexFloat.castTo_exact",
    "Verif.HexFloat.castTo_overflow",
    "Verif.HexFloat.castTo_widens",
    "Verif.HexFloat.castTo_there_and_back",
    "Verif.HexFloat.half_float_half",
    "Verif.HexFloat.float_double_float",
    "Verif.HexFloat.castTo_zero",
    "Verif.HexFloat.castTo_nan",
    "Verif.HexFloat.castTo_inf",
    "Verif.HexFloat.quantize_rounds",
    "Verif.HexFloat.castTo_carry_lost",
    "Verif.HexFloat.castTo_subnormal_not_nearest",
    "Verif.HexFloat.castTo_subnormal_not_up",
    "Verif.HexFloat.castTo_toZero_infinity",
    "Verif.HexFloat.castTo_top_binade",
    "Verif.HexFloat.castTo_exponent_wraps",
    "Verif.HexFloat.castTo_bias_wraps",
    "Verif.HexFloat.castTo_e8m0_loops",
    "Verif.HexFloat.parse_exponent_wraps",
    "Verif.HexFloat.quantize_keeps_subnormals"
   ],
   "note": "Full statement is false of the code. Proved: zeros, NaNs, infinities; truncation always right; other directions right for normal results unless a fraction carry occurs, in which case the result is exactly half; what overflow gives; exactness of representable values. Counterexamples proved for the rest."
  },
  {
   "property": "C12",
   "status": "proved",
   "theorems": [
    "Verif.Asm.string_roundtrip",
    "Verif.Asm.string_words_roundtrip",
    "Verif.Asm.padding_lost"
   ],
   "note": "All NUL-free strings up to the length limit and all continuations that begin with a separator. padding_lost records that non-zero bytes after the terminator do not survive."
  },
  {
   "property": "C13",
   "status": "partial",
   "theorems": [
    "Verif.Disasm.roundtrip_partial",
    "Verif.Disasm.Example.roundtrip_padding",
    "Verif.Disasm.Example.roundtrip_narrow",
    "Verif.Disasm.Example.roundtrip_nameless_mask",
    "Verif.Disasm.Example.roundtrip_memory_access",
    "Verif.Disasm.Example.roundtrip_comment"
   ],
   "note": "For every module the parser accepts all of whose instructions meet Spec.Faithful, over every grammar whose tables agree, and for all combinations of the header, indent, comment and byte offset options. Each exception in Faithful that the code gets wrong has a counterexample theorem. Floating point text is a hypothesis (see C10); big-endian modules only without OpExtInstImport (see C03)."
  },
  {
   "property": "C14",
   "status": "proved",
   "theorems": [
    "Verif.Asm.namedIds_spec",
    "Verif.Asm.assemble_ids",
    "Verif.Asm.namedIds_alias",
    "Verif.Asm.namedIds_zero",
    "Verif.Asm.namedIds_overflow"
   ],
   "note": "All sequences of names and sets of preserved numbers below 2^32-1; assemble_ids links the sequence to whole texts and the header. Three theorems record the deviations of the numeric id mode."
  },
  {
   "property": "C15",
   "status": "proved",
   "theorems": [
    "Verif.Asm.assemble_counts",
    "Verif.Asm.assemble_tiling",
    "Verif.Asm.assembleLoop_fuel",
    "Verif.Asm.opUnknown_count_wrong",
    "Verif.Asm.comma_fault"
   ],
   "note": "All texts over all grammars with 16-bit opcodes. Instructions begun by an immediate and OpUnknown are under the user's control; a theorem shows that the latter's count may be wrong."
  },
  {
   "property": "C16",
   "status": "proved",
   "theorems": [
    "Verif.NameMapper.friendlyNames_spec",
    "Verif.NameMapper.friendlyNames_stable",
    "Verif.NameMapper.friendlyNames_opName",
    "Verif.NameMapper.sanitize_id",
    "Verif.NameMapper.pickName_some"
   ],
   "note": "All instruction lists. Names are unique among the ids that were recorded; an example shows that ids never seen by the mapper may collide with a recorded name."
  },
  {
   "property": "C17",
   "status": "proved",
   "theorems": [
    "Verif.EnumSet.contains_refines",
    "Verif.EnumSet.insert_erase_results",
    "Verif.EnumSet.iterate_refines",
    "Verif.EnumSet.hasAnyOf_refines",
    "Verif.EnumSet.beq_refines",
    "Verif.EnumSet.movedFrom_inconsistent"
   ],
   "note": "Refinement to a mathematical set for every history. movedFrom_inconsistent records that a moved-from set keeps a stale size."
  },
  {
   "property": "C18",
   "status": "proved",
   "theorems": [
    "Verif.SmallVector.smallVector_refines",
    "Verif.SmallVector.insert_empty_range",
    "Verif.SmallVector.selfMove_result",
    "Verif.SmallVector.pushOwn_full"
   ],
   "note": "Every history over any number of vectors and every inline capacity; undefined behaviour is an explicit outcome that is shown not to occur. Side theorems record misuse: push_back of an own element at full capacity reads a destroyed object, self-move empties an inline vector."
  },
  {
   "property": "C19",
   "status": "proved",
   "theorems": [
    "Verif.IList.intrusiveList_refines",
    "Verif.IList.moveBefore_result",
    "Verif.IList.nextNode_not_in_list",
    "Verif.IList.insertBefore_self",
    "Verif.IList.moveAssignNode_self"
   ],
   "note": "Pointer-level heap model; every history meeting the documented requirements. Side theorems record misuse the asserts do not catch: NextNode of a detached node dereferences null (documented to return null), InsertBefore(self) makes a sentinel-less ring, self-move corrupts the ring."
  },
  {
   "property": "C20",
   "status": "partial",
   "theorems": [
    "Verif.BitVector.get_refines",
    "Verif.BitVector.set_clear_results",
    "Verif.BitVector.beq_empty_refine",
    "Verif.BitVector.or_result_partial",
    "Verif.BitVector.or_result_wrong"
   ],
   "note": "Set semantics fully proved. The claim 'Or returns true iff changed' is false of the code (or_result_wrong); or_result_partial covers operands not longer than the receiver."
  },
  {
   "property": "C21",
   "status": "proved",
   "theorems": [
    "Verif.Cfa.dfs_is_depth_first_search",
    "Verif.Cfa.dfs_preorder_exact",
    "Verif.Cfa.dfs_postorder_exact",
    "Verif.Cfa.dfs_back_edge_iff",
    "Verif.Cfa.dfs_back_edge_iff_cyclic"
   ],
   "note": "Explicit-stack loop refines recursive DFS; exact visited set, orders, back edges; every finite graph."
  },
  {
   "property": "C22",
   "status": "proved",
   "theorems": [
    "Verif.Cfa.calculateDominators_exact",
    "Verif.Cfa.dominators_of_traversal",
    "Verif.Cfa.calculateDominators_empty"
   ],
   "note": "Termination and exactness of the Cooper-Harvey-Kennedy iteration."
  },
  {
   "property": "C23",
   "status": "partial",
   "theorems": [
    "Verif.Cfa.traversal_roots_cover",
    "Verif.Cfa.augmented_cfg_covers",
    "Verif.Cfa.traversal_roots_not_minimal"
   ],
   "note": "Coverage proved; the minimality promised in the header comment is false of the code (traversal_roots_not_minimal)."
  },
  {
   "property": "C24",
   "status": "proved",
   "theorems": [
    "Verif.DomTree.dominator_tree_exact",
    "Verif.DomTree.postdominator_tree_exact",
    "Verif.DomTree.empty_function",
    "Verif.DomTree.dominatesInst_iff"
   ],
   "note": "end to end from the function's own control-flow graph, built on C21 and C22"
  },
  {
   "property": "C25",
   "status": "partial",
   "theorems": [
    "Verif.CompactIds.compactIds_partial",
    "Verif.CompactIds.Example.compactIds_trailing_line"
   ],
   "note": "Injective renaming onto 1..n everywhere, for modules without trailing line instructions; false of the code with them (compactIds_trailing_line)."
  },
  {
   "property": "C26",
   "status": "proved",
   "theorems": [
    "Verif.Fold.scalarFold_sound",
    "Verif.Fold.scalarFold_total"
   ],
   "note": "Every opcode of the evaluator, all values of known and unknown operands; no host undefined behaviour on scalars."
  },
  {
   "property": "C27",
   "status": "partial",
   "theorems": [
    "Verif.Fold.foldToConstant_sound_partial",
    "Verif.Fold.foldToConstant_safe_partial",
    "Verif.Fold.smod_wrong",
    "Verif.Fold.sdiv_narrow_wrong",
    "Verif.Fold.sconvert_narrow_wrong",
    "Verif.Fold.smin_unsigned_wrong",
    "Verif.Fold.umax_signed_wrong",
    "Verif.Fold.sdiv_negation_wrong",
    "Verif.Fold.snegate_null_vector_wrong",
    "Verif.Fold.sdiv64_faults",
    "Verif.Fold.snegate64_faults",
    "Verif.Fold.null_component_faults"
   ],
   "note": "Integer and boolean rules on scalars and vectors at widths 8 to 64, outside the listed cases in which the code is wrong (each shown by a counterexample theorem). Composite extraction and floating point rules are not modelled."
  },
  {
   "property": "C28",
   "status": "partial",
   "theorems": [
    "Verif.Rules.rules_right",
    "Verif.Rules.rules_right_partial",
    "Verif.Rules.negated_quotient_wrong",
    "Verif.Rules.negated_quotient_ub",
    "Verif.Rules.double_negative_quotient_wrong",
    "Verif.Rules.select_division_wrong",
    "Verif.Rules.reassociate_vector_fault",
    "Verif.Rules.div_negate_half_fault",
    "Verif.Rules.redundant_zero_ill_typed",
    "Verif.Rules.mul_div_ignores_no_contraction"
   ],
   "note": "46 rules on scalar and vector arithmetic, bitwise, logical, comparison and select instructions, for every width, vector size, module and execution; floating point in exact arithmetic. rules_right is unconditional for instructions other than divisions and integer negations; rules_right_partial excludes three division patterns that the code gets wrong (witnesses). Composite, dot-product, phi, image and bitcast rules are not modelled."
  },
  {
   "property": "C29",
   "status": "proved",
   "theorems": [
    "Verif.Strength.process_refines",
    "Verif.Strength.powers_of_two",
    "Verif.Strength.isPowerOf2_iff"
   ],
   "note": "whole pass; annotations, names and line instructions not modelled"
  },
  {
   "property": "C30",
   "status": "proved",
   "theorems": [
    "Verif.PassManager.run_spec",
    "Verif.PassManager.optimizerRun_spec",
    "Verif.PassManager.run_again_after_success",
    "Verif.PassManager.run_again_after_failure"
   ],
   "note": "Arbitrary pass behaviours; also per-pass validation and the output buffer of Optimizer::Run. run_again_after_failure records that rerunning a manager after a failed run dereferences a null pass."
  },
  {
   "property": "C31",
   "status": "proved",
   "theorems": [
    "Verif.DefUse.defUse_exact",
    "Verif.DefUse.replaceAll_removes",
    "Verif.DefUse.redefinition_loses_users",
    "Verif.DefUse.clear_after_def_only",
    "Verif.DefUse.dangling_use_asserts"
   ],
   "note": "all histories of additions, kills, operand changes (ForgetUses/AnalyzeUses and UpdateDefUse) and ReplaceAllUsesWithPredicate that define ids once; two theorems show why the preconditions are needed"
  },
  {
   "property": "C32",
   "status": "proved",
   "theorems": [
    "Verif.NextId.takeNextId_spec",
    "Verif.NextId.takeMany_fresh"
   ],
   "note": "Every number of requests, for modules with a nonzero id bound."
  },
  {
   "property": "C33",
   "status": "partial",
   "theorems": [
    "Verif.Loader.load_partial",
    "Verif.Loader.reload_partial",
    "Verif.Loader.reload_inOrder_partial",
    "Verif.Loader.reload_exact",
    "Verif.Loader.words_kept",
    "Verif.Loader.Example.no_tracking_adds_noLine",
    "Verif.Loader.Example.debug_dropped",
    "Verif.Loader.Example.merge_loses_scope",
    "Verif.Loader.Example.scope_before_variable_lost",
    "Verif.Loader.Example.graph_lines_lost",
    "Verif.Loader.Example.open_graph_lost",
    "Verif.Loader.Example.second_memory_model",
    "Verif.Loader.Example.scope_without_debug_faults",
    "Verif.Loader.Example.debug_moved"
   ],
   "note": "For every instruction stream meeting the stated regularity conditions: same instructions with the same lines and scopes, in layout order; word for word when there is no line or scope information. The Example theorems show the code violating the claim on streams that do not meet the conditions."
  },
  {
   "property": "C34",
   "status": "proved",
   "theorems": [
    "Verif.Reducer.reducer_output",
    "Verif.Reducer.reducer_initial"
   ],
   "note": "For every validator, interestingness function and pass behaviour."
  },
  {
   "property": "C35",
   "status": "partial",
   "theorems": [
    "Verif.Reducer.reducer_terminates",
    "Verif.Reducer.reducer_attempts_bounded",
    "Verif.Reducer.reducer_minimal_partial",
    "Verif.Reducer.reducer_minimal",
    "Verif.Reducer.reducer_not_minimal_after_cleanup"
   ],
   "note": "Termination and step bound fully proved. 1-minimality holds for cleanup passes and, without cleanup passes, for all passes; it fails for the main passes once cleanup has changed the binary (reducer_not_minimal_after_cleanup)."
  },
  {
   "property": "C36",
   "status": "proved",
   "theorems": [
    "Verif.Link.shiftIds_spec",
    "Verif.Link.shiftIds_fails",
    "Verif.Link.merge_spec",
    "Verif.Link.combine_spec",
    "Verif.Link.lines_not_shifted"
   ],
   "note": "ids of operands; line instructions attached to an instruction are not shifted (lines_not_shifted)"
  },
  {
   "property": "C37",
   "status": "proved",
   "theorems": [
    "Verif.Link.importExportPairs_spec",
    "Verif.Link.import_unique"
   ],
   "note": "type and decoration checks after pairing not modelled"
  },
  {
   "property": "C38",
   "status": "proved",
   "theorems": [
    "Verif.Lcs.lcs_get_optimal",
    "Verif.Lcs.lcs_result_unique_length"
   ],
   "note": "Common subsequence, optimal, reported length; for sequence sizes below 2^30 (the memo index does not overflow)."
  },
  {
   "property": "C39",
   "status": "proved",
   "theorems": [
    "Verif.Layout.accepts_iff",
    "Verif.Layout.never_faults",
    "Verif.Layout.line_between_declarations",
    "Verif.Layout.line_in_declaration"
   ],
   "note": "Exactness of the layout check against a grammar of modules (functions, blocks, graphs); no assertion fails. Opcodes are grouped as in the code's switch. A line between two declarations makes the second unacceptable."
  },
  {
   "property": "C40",
   "status": "proved",
   "theorems": [
    "Verif.IdCheck.validate_iff",
    "Verif.IdCheck.accepted_uses_defined"
   ],
   "note": "Acceptance is equivalent to a declarative specification; uniqueness of definitions is the parser's (C04) and enters the corollary as a hypothesis. Opcode attributes (can have a type operand, requires a type, non-semantic) are data of the instruction."
  },
  {
   "property": "C41",
   "status": "proved",
   "theorems": [
    "Verif.DomCheck.accepted_uses_dominated",
    "Verif.DomCheck.check_exact",
    "Verif.DomCheck.reachability_exact",
    "Verif.DomCheck.dominated_use_rejected"
   ],
   "note": "Soundness for any control-flow graph and block order; acceptance is exact when blocks with merge instructions can leave their function, and a witness shows that hypothesis is needed (a dominated use is rejected in an endless function)."
  },
  {
   "property": "C42",
   "status": "proved",
   "theorems": [
    "Verif.Adjacency.adjacency_exact",
    "Verif.Adjacency.adjacency_blocks"
   ],
   "note": "every sequence of instructions; also restated in terms of functions and blocks. A merge instruction that is the last of the module is accepted by this check"
  },
  {
   "property": "C43",
   "status": "proved",
   "theorems": [
    "Verif.DataFlow.run_fixpoint",
    "Verif.DataFlow.run_fixpoint_complete",
    "Verif.DataFlow.run_least_solution",
    "Verif.DataFlow.run_least_solution_complete",
    "Verif.DataFlow.postOrder_exact",
    "Verif.DataFlow.postOrder_null",
    "Verif.DataFlow.forwardInit_exact",
    "Verif.DataFlow.forward_fixpoint",
    "Verif.DataFlow.forwardSuccs_readers",
    "Verif.DataFlow.echo_diverges"
   ],
   "note": "any analysis whose state moves down a well-founded order; monotone lattice analyses get the least solution"
  },
  {
   "property": "C44",
   "status": "proved",
   "theorems": [
    "Verif.SpecConst.parseDefaultValuesString_spec",
    "Verif.SpecConst.parseDefaultValuesString_null",
    "Verif.SpecConst.parseDefaultValueStr_int",
    "Verif.SpecConst.parseDefaultValueStr_bool",
    "Verif.SpecConst.bitPattern_narrow",
    "Verif.SpecConst.bitPattern_words",
    "Verif.SpecConst.bitPattern_bool",
    "Verif.SpecConst.process_spec",
    "Verif.SpecConst.process_total",
    "Verif.SpecConst.specData_prefix",
    "Verif.SpecConst.bitPattern_odd_width",
    "Verif.SpecConst.process_untyped"
   ],
   "note": "All argument texts, maps and annotation lists. The encoding of floating point texts is a parameter. Three theorems record deviations."
  },
  {
   "property": "C45",
   "status": "proved",
   "theorems": [
    "Verif.Flags.split_name_args",
    "Verif.Flags.split_name",
    "Verif.Flags.split_short_name",
    "Verif.Flags.splitFlagArgs_total",
    "Verif.Flags.split_short_name_args_wrong"
   ],
   "note": "All texts of the documented forms. split_short_name_args_wrong records that -name=args loses the last character of the name."
  },
  {
   "property": "C46",
   "status": "partial",
   "theorems": [
    "Verif.DeadConst.deadConstants_safe",
    "Verif.DeadConst.deadConstants_exact_partial",
    "Verif.DeadConst.deadConstants_idempotent_partial",
    "Verif.DeadConst.decorateId_dangles",
    "Verif.DeadConst.replicate_not_idempotent"
   ],
   "note": "safety for every module that defines ids once; exactness and idempotence where constants refer to each other in declaration order through the operands the pass follows; the last two theorems show the code violating the claim elsewhere"
  },
  {
   "property": "C47",
   "status": "partial",
   "theorems": [
    "Verif.DeadFunc.deadFunctions_exact_partial",
    "Verif.DeadFunc.deadFunctions_asserts",
    "Verif.DeadFunc.deadFunctions_closed_partial",
    "Verif.DeadFunc.group_export_removed",
    "Verif.DeadFunc.noncall_reference_dangles",
    "Verif.DeadFunc.alias_scope_missed",
    "Verif.DeadFunc.collect_diverges"
   ],
   "note": "every call graph, with the operand decoding of the four calling instructions; the code does not see exports through decoration groups or references that are not calls, shown by theorems"
  },
  {
   "property": "C48",
   "status": "partial",
   "theorems": [
    "Verif.ScalarEvo.simplify_value_partial",
    "Verif.ScalarEvo.simplify_value_mod_partial",
    "Verif.ScalarEvo.simplify_value_recFree",
    "Verif.ScalarEvo.simplify_only_overflow",
    "Verif.ScalarEvo.create_value",
    "Verif.ScalarEvo.sumRecurrents_value",
    "Verif.ScalarEvo.eliminateZero_value",
    "Verif.ScalarEvo.simplify_scaled_offset_wrong",
    "Verif.ScalarEvo.simplify_lost_negation_wrong",
    "Verif.ScalarEvo.simplify_lost_loop_wrong",
    "Verif.ScalarEvo.simplify_negated_product_wrong",
    "Verif.ScalarEvo.simplify_product_becomes_sum",
    "Verif.ScalarEvo.simplify_square_becomes_double",
    "Verif.ScalarEvo.simplify_zero_step_loses_offset",
    "Verif.ScalarEvo.simplify_cant_reads_uninitialised"
   ],
   "note": "Full statement is false of the code (witnesses). Proved over the integers and modulo 2^w for sums and negations of constants, unknowns, recurrent expressions and constant multiples under three conditions that are each shown to be needed."
  },
  {
   "property": "C49",
   "status": "proved",
   "theorems": [
    "Verif.EquivRel.equivalence_exact",
    "Verif.EquivRel.precondition_needed"
   ],
   "note": ""
  },
  {
   "property": "C50",
   "status": "proved",
   "theorems": [
    "Verif.Binary.takeFirst_terminates",
    "Verif.Binary.accepts_iff",
    "Verif.Binary.pushForMask_eq",
    "Verif.Binary.maskLoop_eq",
    "Verif.Binary.alternatePattern_spec"
   ],
   "note": "Accepted operand sequences are exactly those the pattern stands for; mask operands lowest bit first."
  },
  {
   "property": "C51",
   "status": "proved",
   "theorems": [
    "Verif.TargetEnv.parseTargetEnv_spec",
    "Verif.TargetEnv.denotes_unique",
    "Verif.TargetEnv.parseVulkanEnv_spec",
    "Verif.TargetEnv.readEnv_spec",
    "Verif.TargetEnv.vulkanEnvs_versions",
    "Verif.TargetEnv.documented_family"
   ],
   "note": "All texts and version pairs; also the version comment of assembly texts."
  },
  {
   "property": "C52",
   "status": "proved",
   "theorems": [
    "Verif.Propagator.run_terminates",
    "Verif.Propagator.run_no_fault",
    "Verif.Propagator.run_settles",
    "Verif.Propagator.run_completes",
    "Verif.Propagator.value_change_not_propagated"
   ],
   "note": "One Run of a fresh propagator with an arbitrary stateful visit function. Termination needs no hypothesis; the rest assumes the function is in SSA form. Stability is with respect to statuses; value_change_not_propagated shows that value changes under an unchanged status are not propagated."
  },
  {
   "property": "C53",
   "status": "partial",
   "theorems": [
    "Verif.ScalarEvo.greater_than_zero_sound",
    "Verif.ScalarEvo.greater_or_equal_zero_partial",
    "Verif.ScalarEvo.greater_or_equal_wrong",
    "Verif.ScalarEvo.greater_than_zero_wraps"
   ],
   "note": "Over the integers, for every expression. The negative answer of the or-equal query is wrong for values that may be zero (witness); wrapping arithmetic is ignored by the code (witness)."
  },
  {
   "property": "C54",
   "status": "partial",
   "theorems": [
    "Verif.ScalarEvo.divide_value_partial",
    "Verif.ScalarEvo.divide_right_product_wrong"
   ],
   "note": "Constants outright; products of recurrence-free factors when no second factor is itself a product, where the code multiplies with the wrong factor (witness)."
  },
  {
   "property": "C55",
   "status": "partial",
   "theorems": [
    "Verif.Unroll.iterations_exact_partial",
    "Verif.Unroll.iterations_found",
    "Verif.Unroll.Example.iterations_wrap",
    "Verif.Unroll.Example.iterations_endless",
    "Verif.Unroll.Example.iterations_signedness",
    "Verif.Unroll.Example.iterations_step64",
    "Verif.Unroll.Example.iterations_overflow",
    "Verif.Unroll.Example.iterations_polarity"
   ],
   "note": "Exact (an equivalence with the counter not wrapping at its last step) when constants are read with the sign the comparison uses, the step has 32 bits and the false label leaves the loop; each condition is shown to be needed."
  },
  {
   "property": "C56",
   "status": "partial",
   "theorems": [
    "Verif.Unroll.unroll_right_partial",
    "Verif.Unroll.residual_too_long",
    "Verif.Unroll.factor_one_fails",
    "Verif.Unroll.Example.unroll_residual_wrong",
    "Verif.Unroll.Example.unroll_header_wrong"
   ],
   "note": "For every loop body and factor when the count is right, the code before the exit test has no effect, and residual loops compare strictly on 32 bits; with <= and >= residual loops always run too long (theorem)."
  },
  {
   "property": "C57",
   "status": "partial",
   "theorems": [
    "Verif.Ssa.ssa_values_kept_partial",
    "Verif.Ssa.ssa_uses_kept_partial",
    "Verif.Ssa.ssa_load_kept_partial",
    "Verif.Ssa.ssa_loads_gone_partial",
    "Verif.Ssa.ssa_phi_complete_partial",
    "Verif.Ssa.ssa_store_lost",
    "Verif.Ssa.ssa_stale_load"
   ],
   "note": "For every valid function, control flow graph, path and meaning of instructions, provided the run finished, overwrote no definition recorded by a store and replaced no load by a removed candidate. Without the provisos the claim is false of the code (two witnesses, one a miscompilation)."
  },
  {
   "property": "C58",
   "status": "partial",
   "theorems": [
    "Verif.Vn.same_number_same_value_partial",
    "Verif.Vn.local_elimination_partial",
    "Verif.Vn.global_elimination_partial",
    "Verif.Vn.global_elimination_values_partial",
    "Verif.Vn.global_elimination_ends",
    "Verif.Vn.global_elimination_no_dangling",
    "Verif.Vn.repeated_same_number",
    "Verif.Vn.second_removed",
    "Verif.Vn.second_removed_below",
    "Verif.Vn.untyped_variables_merged",
    "Verif.Vn.volatile_loads_merged"
   ],
   "note": "For every valid module, control flow graph, path and meaning of instructions, without OpUntypedVariableKHR and volatile loads; with them the claim is false of the code (witnesses)."
  },
  {
   "property": "C59",
   "status": "partial",
   "theorems": [
    "Verif.BlockLayout.accepted_no_overlap_partial",
    "Verif.BlockLayout.accepted_inside_partial",
    "Verif.BlockLayout.accepted_size_partial",
    "Verif.BlockLayout.accepted_scalar_aligned_partial",
    "Verif.BlockLayout.accepted_handle_aligned_partial",
    "Verif.BlockLayout.accepted_aligned_partial",
    "Verif.BlockLayout.accepted_no_straddle_partial",
    "Verif.BlockLayout.accepted_no_straddle_relaxed_partial",
    "Verif.BlockLayout.straddle_test_iff",
    "Verif.BlockLayout.accepted_iff_rules_partial",
    "Verif.BlockLayout.overflow_overlap",
    "Verif.BlockLayout.spec_length_overlap",
    "Verif.BlockLayout.runtime_straddle",
    "Verif.BlockLayout.relaxed_struct_misaligned",
    "Verif.BlockLayout.marker_stride",
    "Verif.BlockLayout.empty_order"
   ],
   "note": "Proved for blocks without a part above 2 GiB whose lengths, strides and offsets are known; false outside: sizes wrap at 2^32 (overflow_overlap), arrays of specialised length count as empty (spec_length_overlap), the stride 2^32-1 is taken for unknown (marker_stride). With relaxed block layout structs may be misaligned (relaxed_struct_misaligned) and runtime arrays may straddle (runtime_straddle). Not modelled: which types are checked (Run)."
  },
  {
   "property": "C60",
   "status": "partial",
   "theorems": [
    "Verif.LoopDep.independent_sound_partial",
    "Verif.LoopDep.distances_true_partial",
    "Verif.LoopDep.gcd_test_sound",
    "Verif.LoopDep.greatest_common_divisor",
    "Verif.LoopDep.groups_cover",
    "Verif.LoopDep.groups_separate",
    "Verif.LoopDep.groups_coupled",
    "Verif.LoopDep.delta_rounds",
    "Verif.LoopDep.unknowns_wrong",
    "Verif.LoopDep.downwards_wrong",
    "Verif.LoopDep.cancelled_wrong",
    "Verif.LoopDep.signs_wrong",
    "Verif.LoopDep.negative_wrong",
    "Verif.LoopDep.fromFive_wrong",
    "Verif.LoopDep.bottom_wrong",
    "Verif.LoopDep.stretched_wrong",
    "Verif.LoopDep.kinds_wrong",
    "Verif.LoopDep.nested_wrong",
    "Verif.LoopDep.halfway_wrong",
    "Verif.LoopDep.three_distances_null",
    "Verif.LoopDep.unknown_trips_null"
   ],
   "note": "Independence and distance vectors are proved right for nests of loops from 0 by 1 tested first, linear subscripts and flat pointers, where coupled subscripts depend on one loop each; partition, GCD test and termination without restriction. Outside the class the claim is false of the code: eleven witnesses."
  },
  {
   "property": "C61",
   "status": "partial",
   "theorems": [
    "Verif.Robust.pointers_in_bounds_partial",
    "Verif.Robust.in_bounds_unchanged_partial",
    "Verif.Robust.pointee_kept",
    "Verif.Robust.pass_succeeds_partial",
    "Verif.Robust.shape_kept",
    "Verif.Robust.narrow_wrong",
    "Verif.Robust.empty_wrong",
    "Verif.Robust.null_wrong"
   ],
   "note": "Proved for all valid modules and executions, except constants of 8 and 16 bit unsigned types which are negative as signed values (narrow_wrong), empty runtime arrays (empty_wrong) and null constants (null_wrong), for which it is false."
  },
  {
   "property": "C62",
   "status": "partial",
   "theorems": [
    "Verif.Ccp.constants_right_partial",
    "Verif.Ccp.executed_simulated_partial",
    "Verif.Ccp.behaviour_kept_partial",
    "Verif.Ccp.replaced_by_constants",
    "Verif.Ccp.known_if_operands_known",
    "Verif.Ccp.pass_completes",
    "Verif.Ccp.switch64_wrong"
   ],
   "note": "Proved for switches with selectors of at most 32 bits; switch64_wrong shows that the claim fails for 64-bit selectors. Folding is a parameter assumed to be right."
  },
  {
   "property": "C63",
   "status": "partial",
   "theorems": [
    "Verif.VectorDce.behaviour_kept_partial",
    "Verif.VectorDce.live_components_kept_partial",
    "Verif.VectorDce.deleted_unused",
    "Verif.VectorDce.dead_insert_unused",
    "Verif.VectorDce.pass_completes",
    "Verif.VectorDce.long_vector_wrong"
   ],
   "note": "Proved for vectors of at most 16 components; long_vector_wrong shows that the claim fails for the longer ones that LongVectorEXT allows."
  },
  {
   "property": "C64",
   "status": "partial",
   "theorems": [
    "Verif.LocalElim.behaviour_kept_partial",
    "Verif.LocalElim.result_valid_partial",
    "Verif.LocalElim.only_accesses_removed",
    "Verif.LocalElim.known_load_removed",
    "Verif.LocalElim.overwritten_store_removed",
    "Verif.LocalElim.private_supported",
    "Verif.LocalElim.stored_address_wrong"
   ],
   "note": "Proved for logical addressing; stored_address_wrong shows that the claim fails when addresses of variables are stored, which relaxed logical addressing allows."
  },
  {
   "property": "C65",
   "status": "partial",
   "theorems": [
    "Verif.SingleStore.behaviour_kept_partial",
    "Verif.SingleStore.result_valid_partial",
    "Verif.SingleStore.only_loads_removed",
    "Verif.SingleStore.dominated_loads_removed",
    "Verif.SingleStore.variables_first",
    "Verif.SingleStore.stored_address_wrong"
   ],
   "note": "Proved for logical addressing; stored_address_wrong shows that the claim fails when addresses of variables are stored, which relaxed logical addressing allows. Dominance is a parameter assumed to be right."
  },
  {
   "property": "C66",
   "status": "partial",
   "theorems": [
    "Verif.Adce.walk_succeeds",
    "Verif.Adce.finished_kept",
    "Verif.Adce.events_kept",
    "Verif.Adce.nothing_added_partial",
    "Verif.Adce.operands_kept",
    "Verif.Adce.kept_for_a_reason",
    "Verif.Adce.endless_loop_removed"
   ],
   "note": "One function, with its structured order given. That nothing is added is proved for functions that can always finish; endless_loop_removed shows that it fails otherwise."
  },
  {
   "property": "C67",
   "status": "partial",
   "theorems": [
    "Verif.Flatten.decorations_kept",
    "Verif.Flatten.member_decorations_kept",
    "Verif.Flatten.other_decorations_kept",
    "Verif.Flatten.groups_gone",
    "Verif.Flatten.completes_partial",
    "Verif.Flatten.never_undefined",
    "Verif.Flatten.order_kept",
    "Verif.Flatten.member_name_hangs"
   ],
   "note": "Termination is proved for modules without decoration groups or without OpMemberName; member_name_hangs shows that the pass never ends on any other module."
  },
  {
   "property": "C68",
   "status": "partial",
   "theorems": [
    "Verif.PrivLocal.runs_kept_partial",
    "Verif.PrivLocal.uncalled_once",
    "Verif.PrivLocal.entry_point_kept",
    "Verif.PrivLocal.moved_iff",
    "Verif.PrivLocal.functions_kept",
    "Verif.PrivLocal.uses_in_scope",
    "Verif.PrivLocal.types_kept",
    "Verif.PrivLocal.interfaces",
    "Verif.PrivLocal.value_lost"
   ],
   "note": "Runs are proved the same if no function that gets a variable is entered twice; value_lost shows that the property fails otherwise."
  },
  {
   "property": "C69",
   "status": "partial",
   "theorems": [
    "Verif.Locations.accepted_apart_partial",
    "Verif.Locations.accepted_located",
    "Verif.Locations.no_false_conflict",
    "Verif.Locations.apart_accepted",
    "Verif.Locations.locations_counted",
    "Verif.Locations.array_member_missed",
    "Verif.Locations.array_of_arrays_missed",
    "Verif.Locations.high_location_missed",
    "Verif.Locations.dropped_error"
   ],
   "note": "That conflicts are found is proved for the first 4096 locations and for all shapes but variables that are arrays of arrays and block members that are arrays of elements of four components or more; witnesses show that it fails for these. The other two halves are proved outright."
  },
  {
   "property": "C70",
   "status": "partial",
   "theorems": [
    "Verif.IfConv.runs_kept_partial",
    "Verif.IfConv.steps_kept_partial",
    "Verif.IfConv.kernels_kept",
    "Verif.IfConv.left_alone",
    "Verif.IfConv.only_selections",
    "Verif.IfConv.shared_side_wrong"
   ],
   "note": "Proved for functions in which no block can be reached from both sides of a selection; a witness shows that the statement fails without this. Phis whose values have the same value number are not modelled."
  },
  {
   "property": "C71",
   "status": "partial",
   "theorems": [
    "Verif.CodeSink.Spec.runs_kept_partial",
    "Verif.CodeSink.Spec.valid_kept",
    "Verif.CodeSink.Spec.others_stay",
    "Verif.CodeSink.Spec.moved_between",
    "Verif.CodeSink.Spec.search_ends_partial",
    "Verif.CodeSink.Spec.possible_store_never",
    "Verif.CodeSink.Spec.writable_movable",
    "Verif.CodeSink.Spec.never_moved",
    "Verif.CodeSink.Spec.stored_load_moved",
    "Verif.CodeSink.Spec.unreachable_loop_hangs"
   ],
   "note": "Runs are kept is proved for moved instructions whose outcome depends on their operands only; a witness shows that the pass moves other loads, past stores. That the search ends is proved for functions whose merge blocks can be reached; a witness shows that it may hang otherwise."
  },
  {
   "property": "C72",
   "status": "partial",
   "theorems": [
    "Verif.Licm.Spec.runs_kept_partial",
    "Verif.Licm.Spec.valid_kept",
    "Verif.Licm.Spec.others_stay",
    "Verif.Licm.Spec.hoisted_before",
    "Verif.Licm.Spec.operands_outside",
    "Verif.Licm.Spec.never_hoisted",
    "Verif.Licm.Spec.hoisted_if",
    "Verif.Licm.Spec.guarded_division_hoisted"
   ],
   "note": "Runs are kept is proved for hoisted instructions that have an outcome for all operands; a witness shows that the pass hoists divisions above the test of the divisor. Loops without a preheader are left out."
  },
  {
   "property": "C73",
   "status": "proved",
   "theorems": [
    "Verif.BlockMerge.runs_kept",
    "Verif.BlockMerge.results_kept",
    "Verif.BlockMerge.valid_kept",
    "Verif.BlockMerge.structured_kept",
    "Verif.BlockMerge.headers_kept",
    "Verif.BlockMerge.merged_iff"
   ],
   "note": "All merges in any order. Debug information is left out; the switch around a block is a parameter."
  },
  {
   "property": "C74",
   "status": "partial",
   "theorems": [
    "Verif.DeadBranch.runs_kept",
    "Verif.DeadBranch.visited_kept",
    "Verif.DeadBranch.result_valid",
    "Verif.DeadBranch.reachable_valid",
    "Verif.DeadBranch.live_reachable",
    "Verif.DeadBranch.targets_kept",
    "Verif.DeadBranch.left_only",
    "Verif.DeadBranch.constant_branch",
    "Verif.DeadBranch.constant_switch",
    "Verif.DeadBranch.local_undef_dangles"
   ],
   "note": "Runs: no restriction. Validity: OpUndef outside of functions only (a local one can be left without definition, local_undef_dangles); selection merges that are left are a parameter, that their headers dominate is not proved."
  },
  {
   "property": "C75",
   "status": "partial",
   "theorems": [
    "Verif.CombineAccess.addresses_kept",
    "Verif.CombineAccess.types_kept",
    "Verif.CombineAccess.no_chain_of_chains",
    "Verif.CombineAccess.in_bounds",
    "Verif.CombineAccess.others_kept",
    "Verif.CombineAccess.nonchain_kept",
    "Verif.CombineAccess.fresh_kept",
    "Verif.CombineAccess.wide_left",
    "Verif.CombineAccess.strided_left",
    "Verif.CombineAccess.struct_left",
    "Verif.CombineAccess.step_kept_partial",
    "Verif.CombineAccess.step_typed_partial",
    "Verif.CombineAccess.struct_indexed_by_sum",
    "Verif.CombineAccess.stride_of_base_lost",
    "Verif.CombineAccess.sum_overflows"
   ],
   "note": "Logical addressing: whole pass, no restriction. Pointer access chains: one instruction, where the element operand steps over the array the first chain ends in; the code is wrong for others (three findings)."
  },
  {
   "property": "C76",
   "status": "proved",
   "theorems": [
    "Verif.ControlDep.graph_exact",
    "Verif.ControlDep.avoidable",
    "Verif.ControlDep.independent",
    "Verif.ControlDep.no_exit_crashes"
   ],
   "note": "For functions with an exit; without one the code uses a null pointer (no_exit_crashes), which an assert documents."
  },
  {
   "property": "C77",
   "status": "partial",
   "theorems": [
    "Verif.Divergence.analysis_ends",
    "Verif.Divergence.levels_justified",
    "Verif.Divergence.warnings_justified",
    "Verif.Divergence.flows_followed_partial",
    "Verif.Divergence.levels_exact_partial",
    "Verif.Divergence.not_visited",
    "Verif.Divergence.variable_levels",
    "Verif.Divergence.explanation_ends",
    "Verif.Divergence.phi_missed",
    "Verif.Divergence.condition_skipped",
    "Verif.Divergence.parameter_missed",
    "Verif.Divergence.explanation_endless"
   ],
   "note": "Ends and no false alarm: all functions. Nothing missed: straight functions without flat inputs; the code misses flows in others (three findings). Explanations end without flat inputs; with them they may not (finding)."
  },
  {
   "property": "C78",
   "status": "partial",
   "theorems": [
    "Verif.Bindings.lowest",
    "Verif.Bindings.no_conflict",
    "Verif.Bindings.sampler_moves",
    "Verif.Bindings.ends_iff",
    "Verif.Bindings.ends_with_room",
    "Verif.Bindings.report_exact",
    "Verif.Bindings.nothing_to_do",
    "Verif.Bindings.untouched",
    "Verif.Bindings.resources",
    "Verif.Bindings.sampler_types",
    "Verif.Bindings.endless",
    "Verif.Bindings.recursion_missed"
   ],
   "note": "Everything but termination: all modules without recursion. Termination: exactly when conflict-free 32-bit numbers exist; with conflicts at 0xFFFFFFFF the pass never ends (finding)."
  },
  {
   "property": "C79",
   "status": "partial",
   "theorems": [
    "Verif.DeadMembers.values_exist",
    "Verif.DeadMembers.seen_same",
    "Verif.DeadMembers.seen_type",
    "Verif.DeadMembers.parts_kept",
    "Verif.DeadMembers.spec_parts_kept",
    "Verif.DeadMembers.insert_kept",
    "Verif.DeadMembers.insert_removed",
    "Verif.DeadMembers.construct_kept",
    "Verif.DeadMembers.members_follow",
    "Verif.DeadMembers.groups_follow",
    "Verif.DeadMembers.length_kept",
    "Verif.DeadMembers.insert_dangling",
    "Verif.DeadMembers.untyped_broken",
    "Verif.DeadMembers.payload_shrunk"
   ],
   "note": "Per instruction, for all related values; no induction over whole runs. Removed inserts leave uses without definition, untyped access chains are broken and ray payloads are changed (findings)."
  },
  {
   "property": "C80",
   "status": "partial",
   "theorems": [
    "Verif.Packing.packs",
    "Verif.Packing.layout_valid",
    "Verif.Packing.layout_lowest",
    "Verif.Packing.valid_apart",
    "Verif.Packing.never_raised",
    "Verif.Packing.hlsl_rows",
    "Verif.Packing.hlsl_crossing",
    "Verif.Packing.scalar_matrix_overlap",
    "Verif.Packing.column_major_overlap",
    "Verif.Packing.half_matrix_wrong",
    "Verif.Packing.hlsl_double_fails",
    "Verif.Packing.interleaved_missed",
    "Verif.Packing.bad_member"
   ],
   "note": "std140, std430, scalar: exact for row-major matrices (none with scalar, 32-bit with std140). HLSL: scalars and vectors of 32 bits. The rest is false: matrices overlap with the next member, see the findings."
  },
  {
   "property": "C81",
   "status": "proved",
   "theorems": [
    "Verif.UnifyConst.same_values",
    "Verif.UnifyConst.no_duplicates",
    "Verif.UnifyConst.others_kept",
    "Verif.UnifyConst.kept_iff",
    "Verif.UnifyConst.no_dangling",
    "Verif.UnifyConst.order_kept",
    "Verif.UnifyConst.report_exact"
   ],
   "note": "All lists of global instructions, all specializations."
  }
 ]
}