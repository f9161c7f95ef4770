{"id": "C01", "title": "Binary parsing never reads out of bounds and always terminates", "statement": "spvBinaryParse on a buffer of N words returns after finitely many steps with some result code, and every word it reads from the caller's buffer has index < N; no buffer contents, however malformed, can make it read past the end or loop forever.", "quantifier": "every word sequence of every length, both byte orders, every grammar table, every callback behaviour", "why_tests_cant": "The space of word sequences is infinite; fuzzing only samples it and termination is not observable by a finite test.", "anchors": ["source/binary.cpp: Parser::parseModule, Parser::parseInstruction, Parser::parseOperand, Parser::peekAt"]}
{"id": "C02", "title": "Parsed instructions tile the module and parsed operands tile each instruction", "statement": "When spvBinaryParse succeeds, the instructions handed to the callback, concatenated, are exactly the words of the module after the 5-word header (converted to host byte order), each has the word count stated in its first word, and the operands of each instruction are contiguous, start at word 1 and end at the last word.", "quantifier": "every module that parses successfully", "why_tests_cant": "A gap, overlap or dropped word may appear only for a particular mix of operand kinds, widths and lengths; there are infinitely many mixes.", "anchors": ["source/binary.cpp: Parser::parseModule, Parser::parseInstruction, Parser::parseOperand"]}
{"id": "C03", "title": "Parsing is independent of the module's byte order", "statement": "Parsing a module and parsing the same module with the bytes of every word reversed produce the same result code and the same sequence of callback instructions (words in host order, same operands, ids and types).", "quantifier": "every word sequence accepted or rejected, every callback", "why_tests_cant": "Must hold for every module; tests can flip only the modules they contain.", "anchors": ["source/binary.cpp: Parser::parse, Parser::peekAt, Parser::parseOperand, Parser::setNumericTypeInfoForType", "source/spirv_endian.cpp: spvFixWord, spvBinaryEndianness"]}
{"id": "C04", "title": "Accepted modules define each result id at most once and never id 0", "statement": "If spvBinaryParse succeeds, the result ids reported to the callback are pairwise distinct and non-zero, no id operand of any reported instruction is 0, and every type id reported was non-zero.", "quantifier": "every module that parses successfully", "why_tests_cant": "Universal over modules; duplicates may be arbitrarily far apart.", "anchors": ["source/binary.cpp: Parser::parseOperand (SPV_OPERAND_TYPE_RESULT_ID case), Parser::parseInstruction"]}
{"id": "C05", "title": "Parsing stops at the first error or callback refusal and reports only a prefix", "statement": "The callback sees a prefix of the module's instructions; after a callback returns a non-success code no further callback happens and spvBinaryParse returns that very code; instructions before the first malformed instruction are reported exactly as they would be if the module ended there.", "quantifier": "every module, every callback (arbitrary state)", "why_tests_cant": "Quantifies over all callbacks and all modules.", "anchors": ["source/binary.cpp: Parser::parseModule, Parser::parseInstruction"]}
{"id": "C06", "title": "Module header acceptance is exact", "statement": "spvBinaryHeaderGet / spvBinaryParse accept a header exactly when there are at least five words, the first is the SPIR-V magic number in either byte order, the version word has zero top and bottom bytes and lies between 1.0 and the tool's maximum version, and the returned fields are the words converted to host order.", "quantifier": "every word buffer", "why_tests_cant": "2^160 headers.", "anchors": ["source/binary.cpp: spvBinaryHeaderGet, Parser::parseModule", "source/spirv_endian.cpp: spvBinaryEndianness, spvIsHostEndian"]}
{"id": "C07", "title": "Literal strings round-trip through their word encoding", "statement": "Encoding a NUL-free byte string into words yields floor(n/4)+1 words, zero-padded after the terminator, little-endian bytes in each word; decoding returns the original string; two different strings never share an encoding; decoding reports exactly the first NUL-terminated string and an unterminated sequence is rejected without reading past the end.", "quantifier": "every byte string and every word sequence", "why_tests_cant": "Infinite domain, off-by-one at every length multiple of 4.", "anchors": ["source/util/string_utils.h: MakeVector, AppendToVector, MakeString", "source/binary.cpp: spvDecodeLiteralStringOperand"]}
{"id": "C08", "title": "Integer literals are encoded exactly or rejected", "statement": "ParseAndEncodeIntegerNumber succeeds exactly when the text denotes an integer representable in the declared width and signedness (unsigned hex text denotes the bit pattern; a minus sign is only accepted for signed types), and the emitted words are the sign- or zero-extended two's complement value, low word first.", "quantifier": "every text not beginning with white space, every width 1..64, both signednesses", "why_tests_cant": "Unbounded texts and 64-bit values.", "anchors": ["source/util/parse_number.h: ParseNumber, CheckRangeAndIfHexThenSignExtend", "source/util/parse_number.cpp: ParseAndEncodeIntegerNumber"]}
{"id": "C09", "title": "Bit utilities compute their mathematical meaning", "statement": "SetBits, CountSetBits, IsBitAtPositionSet, MutateBits, SetHighBits, ClearHighBits, ZeroExtendValue, SignExtendValue and LSB compute, bit by bit, exactly the bits their comments describe, for every value and every in-range position and width.", "quantifier": "every value and every bit position allowed by the preconditions", "why_tests_cant": "2^64 values times all positions.", "anchors": ["source/util/bitutils.h: MutateBits, SetBits, ClearBits, CountSetBits, SignExtendValue, ZeroExtendValue, ClearHighBits, HasBit, SetNBits"]}
{"id": "C10", "title": "Hex-float text round-trips every floating-point value", "statement": "Printing any finite 16-, 32- or 64-bit value as a hex float and parsing the text back yields the same bit pattern (sign of zero and subnormals included).", "quantifier": "every bit pattern of each supported format", "why_tests_cant": "2^64 patterns.", "anchors": ["source/util/hex_float.h: operator<<(ostream, HexFloat), operator>>(istream, HexFloat)"]}
{"id": "C11", "title": "Floating-point format conversion rounds as requested", "statement": "HexFloat::castTo returns the nearest representable value in the requested rounding direction, preserves sign, NaN-ness and infinities and flushes or overflows only when the value is out of range.", "quantifier": "every value and rounding mode", "why_tests_cant": "2^64 values times modes.", "anchors": ["source/util/hex_float.h: HexFloat::castTo, getRoundedNormalizedSignificand, setFromSignUnbiasedExponentAndNormalizedSignificand"]}
{"id": "C12", "title": "String literals survive disassembly followed by assembly", "statement": "Escaping a string as the disassembler does, then tokenising it and unescaping it as the assembler does, returns the original bytes and consumes exactly the quoted token, whatever separator and text follow it.", "quantifier": "every NUL-free byte string of at most 65535*4 bytes, every continuation of the text that begins with a separator or is empty", "why_tests_cant": "Interaction of quote, backslash, whitespace, comment and comma handling over all strings.", "anchors": ["source/disassemble.cpp: EmitOperand (LITERAL_STRING)", "source/text.cpp: getWord, spvTextToLiteral", "source/text_handler.cpp"]}
{"id": "C13", "title": "Assembling a disassembled module reproduces its words", "statement": "For every module the parser accepts, disassembling without friendly names and re-assembling with numeric ids preserved yields the same instruction words.", "quantifier": "every parseable module over every grammar", "why_tests_cant": "Infinite modules; needs induction over instruction and operand structure.", "anchors": ["source/disassemble.cpp", "source/text.cpp: spvTextEncodeOperand, spvTextEncodeOpcode", "source/binary.cpp"]}
{"id": "C14", "title": "The assembler maps names to ids injectively and bounds them", "statement": "Within one assembly, the same name always gets the same id; distinct names get distinct ids unless both are numerals for the same preserved number; names that are not preserved get ids that are not 0 and not preserved; preserved numeric names keep their number; the header's bound is greater than every id used.", "quantifier": "every sequence of name uses, with and without preserved numeric ids, as long as there are 32-bit numbers for them", "why_tests_cant": "Histories of unbounded length.", "anchors": ["source/text_handler.cpp: AssemblyContext::spvNamedIdAssignOrGet, getBound", "source/text.cpp: GetNumericIds"]}
{"id": "C15", "title": "Assembled instructions carry correct word counts and never exceed the limit", "statement": "When assembly succeeds, every instruction written with an opcode name (other than OpUnknown, and not started by an immediate) has high half-word equal to its length in words and low half-word equal to its opcode, and an instruction longer than 65535 words is rejected rather than truncated.", "quantifier": "every text, every instruction", "why_tests_cant": "All operand lists.", "anchors": ["source/text.cpp: spvTextEncodeOpcode", "source/opcode.cpp: spvOpcodeMake, spvOpcodeSplit", "source/text_handler.cpp: binaryEncodeU32"]}
{"id": "C16", "title": "Friendly names are unique and lexically valid", "statement": "For every sequence of parsed instructions, two different ids recorded by the friendly-name mapper get different names, each name is non-empty and uses only letters, digits and underscore, and a name once given never changes.", "quantifier": "every sequence of name requests", "why_tests_cant": "Unbounded histories with adversarial names designed to collide with generated suffixes.", "anchors": ["source/name_mapper.cpp: FriendlyNameMapper::SaveName, Sanitize, NameForId"]}
{"id": "C17", "title": "EnumSet behaves as a mathematical set", "statement": "After any sequence of insertions, removals, constructions and copies, contains, size, empty, HasAnyOf, equality and iteration of EnumSet agree with a mathematical set of the inserted values; iteration is strictly increasing and visits each member once.", "quantifier": "every operation history over every 32-bit enumerant value", "why_tests_cant": "Histories and values unbounded; bucket layout depends on order.", "anchors": ["source/enum_set.h: EnumSet::insert, erase, contains, begin, Iterator::operator++, HasAnyOf, operator=="]}
{"id": "C18", "title": "SmallVector behaves as a sequence", "statement": "After any history of push, insert, erase, resize, clear, copy/move assignment and construction, SmallVector's size and elements equal those of a plain sequence undergoing the same history, whether storage is inline or heap, with no out-of-bounds access.", "quantifier": "every operation history, every inline capacity", "why_tests_cant": "Unbounded histories crossing the inline/heap boundary in any order.", "anchors": ["source/util/small_vector.h: SmallVector"]}
{"id": "C19", "title": "IntrusiveList behaves as a sequence of distinct nodes", "statement": "Insertion, removal, splicing and moving between intrusive lists preserve the doubly-linked ring structure (next and previous are mutual inverses, the sentinel closes the ring), and the traversal order equals that of a sequence undergoing the same operations.", "quantifier": "every heap of nodes and lists and every operation history", "why_tests_cant": "Pointer structure invariants over unbounded histories.", "anchors": ["source/util/ilist.h: IntrusiveList", "source/util/ilist_node.h: IntrusiveNodeBase::InsertBefore, InsertAfter, RemoveFromList, ReplaceWith"]}
{"id": "C20", "title": "BitVector behaves as a set of indices", "statement": "Set, Clear, Get and Or of BitVector agree with a set of natural numbers for every history; Set and Clear return the previous membership; Or returns true when and only when the set changes.", "quantifier": "every operation history, every index", "why_tests_cant": "Unbounded histories, word-boundary indices.", "anchors": ["source/util/bit_vector.h, source/util/bit_vector.cpp: BitVector::Set, Clear, Get, Or"]}
{"id": "C21", "title": "Depth-first traversal visits each reachable block exactly once in true pre/post order", "statement": "DepthFirstTraversal terminates on every graph, calls the preorder and postorder callbacks exactly once for each block reachable from the entry and for no other, the orders are those of a depth-first search, and a back-edge is reported exactly for edges to a block still on the search stack.", "quantifier": "every finite directed graph (cycles, self-loops, duplicate edges), every entry", "why_tests_cant": "All graphs.", "anchors": ["source/cfa.h: CFA::DepthFirstTraversal"]}
{"id": "C22", "title": "CalculateDominators computes immediate dominators", "statement": "For a postorder of a graph and its predecessor function, the (block, immediate dominator) pairs returned by CalculateDominators are exactly the immediate dominators: every path from the entry to a block passes through its reported dominator, and every other strict dominator of the block also dominates that one.", "quantifier": "every finite graph", "why_tests_cant": "All graphs, including irreducible ones that need many fix-point rounds.", "anchors": ["source/cfa.h: CFA::CalculateDominators"]}
{"id": "C23", "title": "The augmented CFG makes every block reachable", "statement": "The traversal roots computed for a function's blocks, together with the pseudo entry, reach every block, each block that had no predecessor path from a root is covered, and each root's set is minimal in visiting order.", "quantifier": "every finite graph", "why_tests_cant": "All graphs with unreachable cycles.", "anchors": ["source/cfa.h: CFA::TraversalRoots, ComputeAugmentedCFG"]}
{"id": "C24", "title": "Dominance queries from the optimizer's dominator tree are exact", "statement": "DominatorTree::Dominates(a,b), answered from depth-first numbering, holds exactly when a is an ancestor of b in the tree of immediate dominators; CommonDominator returns the deepest common ancestor.", "quantifier": "every tree, every pair of blocks", "why_tests_cant": "All trees.", "anchors": ["source/opt/dominator_tree.h: DominatorTreeNode", "source/opt/dominator_tree.cpp: DominatorTree::Dominates, ResetDFNumbering", "source/opt/dominator_analysis.cpp: CommonDominator"]}
{"id": "C25", "title": "Id compaction is an injective renaming onto 1..n", "statement": "The compact-ids pass replaces ids by an injection of the used ids onto 1..n in order of first appearance, sets the bound to n+1, changes nothing else, reports a change exactly when some word or the bound changed, and running it again changes nothing.", "quantifier": "every module", "why_tests_cant": "All modules; injectivity is a global property.", "anchors": ["source/opt/compact_ids_pass.cpp: CompactIdsPass::Process, GetRemappedId"]}
{"id": "C26", "title": "Scalar constant folding computes the SPIR-V result", "statement": "Whenever the scalar folder produces a value for an integer or boolean operation on constants, it equals the SPIR-V specified result (wrap-around arithmetic, signed/unsigned comparison, shifts, logical ops); operations whose result is undefined fold to some value without executing undefined host behaviour; nothing is folded when operands are unknown unless the result is the same for every value of the unknown operand.", "quantifier": "every opcode handled, all operand values", "why_tests_cant": "2^96 operand combinations per opcode.", "anchors": ["source/opt/fold.cpp: InstructionFolder::UnaryOperate, BinaryOperate, TernaryOperate, FoldBinaryIntegerOpToConstant, FoldBinaryBooleanOpToConstant"]}
{"id": "C27", "title": "Constant-folding rules are exact at every integer width", "statement": "The constant-folding rules for integer arithmetic, bitwise operations, comparisons, conversions and composite extraction return the SPIR-V specified value truncated and sign-extended to the declared width.", "quantifier": "all operand values at every width 8..64", "why_tests_cant": "2^128 operand pairs.", "anchors": ["source/opt/const_folding_rules.cpp"]}
{"id": "C28", "title": "Algebraic folding rules preserve the value of the instruction", "statement": "Each algebraic rewriting rule (merge of negations, additions, subtractions, multiplications, redundant selects, and so on) replaces an instruction by one that computes the same value for every value of its non-constant operands.", "quantifier": "all values of all operands at all integer widths", "why_tests_cant": "All operand valuations.", "anchors": ["source/opt/folding_rules.cpp"]}
{"id": "C29", "title": "Strength reduction preserves multiplication results", "statement": "Replacing a multiplication by a power of two with a left shift yields the same 32-bit result for every value of the other operand.", "quantifier": "all 2^32 operand values and all powers of two", "why_tests_cant": "All values.", "anchors": ["source/opt/strength_reduction_pass.cpp: StrengthReductionPass::ReplaceMultiplyByPowerOf2"]}
{"id": "C30", "title": "Pass manager runs passes in order and reports status faithfully", "statement": "The optimizer runs the registered passes in order, stops at the first failing pass and reports Failure; otherwise it reports 'changed' exactly when at least one executed pass reported a change, and the module it leaves is the composition of the executed passes.", "quantifier": "every sequence of passes with arbitrary behaviours", "why_tests_cant": "All pass sequences and behaviours.", "anchors": ["source/opt/pass_manager.cpp: PassManager::Run", "source/opt/pass.cpp: Pass::Run"]}
{"id": "C31", "title": "Def-use information stays exact under edits", "statement": "After any sequence of analysing, clearing, killing and replacing instructions, the def-use manager reports for every id exactly the defining instruction and exactly the set of instructions using it.", "quantifier": "every module and every history of edits", "why_tests_cant": "Unbounded histories.", "anchors": ["source/opt/def_use_manager.cpp: DefUseManager::AnalyzeInstDef, AnalyzeInstUse, ClearInst, ForEachUser"]}
{"id": "C32", "title": "Fresh ids never collide and overflow is detected", "statement": "Each id handed out while optimizing is different from every id already used in a module whose ids are below its bound, and when the configured maximum is reached id 0 is returned and the bound is left unchanged.", "quantifier": "every module, every number of requests", "why_tests_cant": "Unbounded histories up to the 2^32 boundary.", "anchors": ["source/opt/ir_context.h: IRContext::TakeNextId", "source/opt/module.h: Module::TakeNextIdBound"]}
{"id": "C33", "title": "Loading and re-emitting a module preserves its instruction words", "statement": "Emitting a module immediately after loading it yields the same words for every instruction (line-debug information included) in the SPIR-V logical order, and the same header except what is documented.", "quantifier": "every module that loads", "why_tests_cant": "All modules.", "anchors": ["source/opt/ir_loader.cpp: IrLoader::AddInstruction, EndModule", "source/opt/module.cpp: Module::ToBinary", "source/opt/instruction.cpp: Instruction::ToBinaryWithoutAttachedDebugInsts"]}
{"id": "C34", "title": "Reducer output is always valid and interesting", "statement": "If the reducer returns anything other than an error about its initial state, the binary it outputs passes validation (when required) and satisfies the user's interestingness test, and it was obtained from the input by a chain of such binaries.", "quantifier": "every input, every interestingness function, every reduction pass behaviour", "why_tests_cant": "All external functions.", "anchors": ["source/reduce/reducer.cpp: Reducer::Run, RunPasses", "source/reduce/reduction_pass.cpp: ReductionPass::TryApplyReduction, NotifyInteresting"]}
{"id": "C35", "title": "Reducer terminates and at completion is 1-minimal", "statement": "The reducer stops for every validator, interestingness function, step limit and pass behaviour; the number of attempted reductions is at most the step limit plus the number of passes minus one; if it reports completion, no single remaining reduction opportunity of any pass is both valid and interesting.", "quantifier": "every input and every interestingness function", "why_tests_cant": "Termination and exhaustive minimality are not observable by tests.", "anchors": ["source/reduce/reducer.cpp: Reducer::RunPasses, ReachedStepLimit", "source/reduce/reduction_pass.cpp: ReductionPass"]}
{"id": "C36", "title": "Linker places modules in disjoint id ranges", "statement": "When linking succeeds in shifting ids, the ids of different input modules occupy disjoint ranges, each module's ids are renamed by a translation, all ids are below the new bound, and exceeding the 32-bit id space is an error rather than a wrap-around.", "quantifier": "every list of modules whose ids are below their bound", "why_tests_cant": "All module lists, sums near 2^32.", "anchors": ["source/link/linker.cpp: ShiftIdsInModules"]}
{"id": "C37", "title": "Linker resolves every import to the unique export of the same name", "statement": "If linking succeeds, every import is matched to an export of the same name (or, only with partial linkage allowed, has none); no name has two exports (unless multiple definitions are allowed), and no name has both an Export and a LinkOnceODR definition; otherwise an error is returned.", "quantifier": "every set of linkage attributes", "why_tests_cant": "All symbol tables.", "anchors": ["source/link/linker.cpp: GetImportExportPairs"]}
{"id": "C38", "title": "Diff's longest common subsequence is optimal", "statement": "The match returned by the LCS routine is a common subsequence under the supplied match predicate: matched positions are increasing in both sequences and matched pairs satisfy the predicate, and no common subsequence is longer; the returned length equals the number of matches.", "quantifier": "all pairs of sequences, all match predicates", "why_tests_cant": "All sequences and predicates.", "anchors": ["source/diff/lcs.h: LongestCommonSubsequence"]}
{"id": "C39", "title": "Layout validation accepts exactly the specified section order", "statement": "The validator's layout check accepts an instruction sequence exactly when the instructions appear in the logical sections order of the SPIR-V specification (capabilities, extensions, imports, memory model, entry points, execution modes, debug, annotations, types/constants/globals, function declarations, function definitions) and functions are well bracketed.", "quantifier": "every instruction sequence", "why_tests_cant": "All sequences.", "anchors": ["source/val/validate_layout.cpp: ModuleLayoutPass, ModuleScopedInstructions, FunctionScopedInstructions", "source/val/validation_state.cpp: ProgressToNextLayoutSectionOrder, IsOpcodeInCurrentLayoutSection"]}
{"id": "C40", "title": "Id validation rejects every use of an undefined id", "statement": "If the validator's id pass succeeds, every id used in the module is defined somewhere in it, ids used before their definition are used only in operand positions where forward references are permitted, and each id is defined once.", "quantifier": "every instruction sequence", "why_tests_cant": "All sequences.", "anchors": ["source/val/validate_id.cpp: IdPass", "source/val/validation_state.cpp: ForwardDeclareId, RemoveIfForwardDeclared, unresolved_forward_ids"]}
{"id": "C41", "title": "Validated definitions dominate their uses", "statement": "If the validator's dominance check passes, then in each function every id use in a reachable block is dominated by the block of its definition (phi operands: the corresponding predecessor is dominated).", "quantifier": "every CFG and every placement of definitions and uses", "why_tests_cant": "All graphs.", "anchors": ["source/val/validate_id.cpp: CheckIdDefinitionDominateUse"]}
{"id": "C42", "title": "Adjacency rules are decided exactly", "statement": "The adjacency check accepts exactly when phi instructions come first in their block (after labels, lines and variables as specified), variables of a function come first in its entry block, and merges are immediately followed by the matching branch.", "quantifier": "every instruction sequence", "why_tests_cant": "All sequences.", "anchors": ["source/val/validate_adjacency.cpp: ValidateAdjacency"]}
{"id": "C43", "title": "Data-flow analysis reaches the fix point of its transfer functions", "statement": "The worklist engine terminates for monotone analyses of finite height and at termination every visited instruction is stable under its transfer function.", "quantifier": "every graph and every monotone analysis", "why_tests_cant": "All graphs and lattices.", "anchors": ["source/opt/dataflow.cpp: ForwardDataFlowAnalysis, DataFlowAnalysis::Run"]}
{"id": "C44", "title": "Spec-constant default values are parsed without loss", "statement": "Parsing the flag text of spec-constant default values yields exactly the id-to-value pairs written, rejecting malformed or duplicate entries, and numeric texts are turned into the bit pattern of the declared type.", "quantifier": "every text", "why_tests_cant": "All texts.", "anchors": ["source/opt/set_spec_constant_default_value_pass.cpp: ParseDefaultValuesString, ParseDefaultValueStr"]}
{"id": "C45", "title": "Command-line flag splitting recovers name and argument", "statement": "Splitting an optimizer flag of the form --name=args yields exactly name and args; flags without '=' yield the name and an empty argument.", "quantifier": "every flag text", "why_tests_cant": "All texts.", "anchors": ["source/util/string_utils.cpp: SplitFlagArgs"]}
{"id": "C46", "title": "Dead-constant elimination removes exactly the unreferenced constants", "statement": "The dead-constant pass removes a constant exactly when no live instruction refers to it directly or through other constants; no remaining instruction refers to a removed id, and the pass is idempotent.", "quantifier": "every module", "why_tests_cant": "All reference graphs.", "anchors": ["source/opt/eliminate_dead_constant_pass.cpp: EliminateDeadConstantPass::Process"]}
{"id": "C47", "title": "Dead-function elimination keeps exactly the functions reachable from entry points and exports", "statement": "A function survives exactly when it is reachable in the call graph from an entry point or exported function.", "quantifier": "every call graph", "why_tests_cant": "All graphs including recursion.", "anchors": ["source/opt/eliminate_dead_functions_pass.cpp", "source/opt/ir_context.cpp: ProcessReachableCallTree, ProcessCallTreeFromRoots"]}
{"id": "C48", "title": "Symbolic scalar simplification preserves value", "statement": "Simplifying a scalar-evolution expression yields an expression with the same value for every assignment of its unknowns and loop counters.", "quantifier": "every expression and assignment", "why_tests_cant": "All expressions and valuations.", "anchors": ["source/opt/scalar_analysis.cpp", "source/opt/scalar_analysis_simplification.cpp: SENodeSimplifyImpl"]}
{"id": "C49", "title": "Equivalence relation of the fuzzer is an equivalence", "statement": "After any history of registrations and merges, IsEquivalent is exactly the reflexive-symmetric-transitive closure of the merged pairs, and class listings agree with it.", "quantifier": "every history", "why_tests_cant": "Unbounded histories with path compression.", "anchors": ["source/fuzz/equivalence_relation.h: EquivalenceRelation"]}
{"id": "C50", "title": "Operand pattern expansion is faithful", "statement": "Expanding optional and variable operand patterns terminates and generates exactly the operand sequences of the grammar: an optional operand zero or one time, a variable operand any number of times, tuples as a unit.", "quantifier": "every pattern and operand sequence", "why_tests_cant": "Unbounded operand counts.", "anchors": ["source/operand.cpp: spvExpandOperandSequenceOnce, spvTakeFirstMatchableOperand, spvAlternatePatternFollowingImmediate, spvPushOperandTypesForMask"]}
{"id": "C51", "title": "Target environment strings are parsed by longest declared prefix", "statement": "spvParseTargetEnv and spvParseVulkanEnv return a target environment exactly for texts beginning with a documented name, and return the documented one.", "quantifier": "every text, every version pair", "why_tests_cant": "All texts.", "anchors": ["source/spirv_target_env.cpp: spvParseTargetEnv, spvParseVulkanEnv"]}
{"id": "C52", "title": "Constraint-propagation engine visits every executable edge and stabilises", "statement": "The SSA propagator terminates when statuses only descend, simulates every block reachable by executable edges, and at termination every instruction's status is stable with respect to its operands.", "quantifier": "every CFG and every monotone visit function", "why_tests_cant": "All CFGs and visit functions.", "anchors": ["source/opt/propagator.cpp: SSAPropagator::Run, Simulate"]}
{"id": "C53", "title": "Sign queries on scalar-evolution expressions are right", "statement": "When IsAlwaysGreaterThanZero (IsAlwaysGreaterOrEqualToZero) succeeds, its answer is right for every value of the unknowns and every iteration of the loops: 'true' means the value always is greater than (or equal to) zero, 'false' that it never is.", "quantifier": "every expression, every assignment of unknowns and loop counters", "why_tests_cant": "The answer is about all iterations and all values of unknowns.", "anchors": ["source/opt/scalar_analysis.cpp: IsGreaterThanZero, ScalarEvolutionAnalysis::IsAlwaysGreaterThanZero, IsAlwaysGreaterOrEqualToZero"]}
{"id": "C54", "title": "Division of scalar-evolution expressions gives quotient and remainder", "statement": "When dividing one scalar-evolution expression by another returns an expression that can be computed, the dividend equals the quotient times the divisor plus the remainder for every assignment, and the remainder is smaller than the divisor.", "quantifier": "every pair of expressions and every assignment", "why_tests_cant": "All expressions and assignments.", "anchors": ["source/opt/scalar_analysis.cpp: SExpression::operator/, RemoveOneNodeFromMultiplyChain"]}
{"id": "C55", "title": "The number of iterations found for a loop is the number it executes", "statement": "When the loop analysis reports a number of iterations for a counted loop, the loop body is executed exactly that many times, and the reported step and initial value are those of the loop. Conversely every counted loop with constant bound, step and start that ends without its counter wrapping around is given its number.", "quantifier": "all widths, signednesses, comparisons, initial values, bounds and steps", "why_tests_cant": "The count depends on three constants of up to 64 bits, the opcode and their types; wrapping, signedness and overflow matter only for a few of the combinations.", "anchors": ["source/opt/loop_descriptor.cpp: Loop::FindNumberOfIterations, Loop::GetIterations, Loop::GetInductionInitValue", "source/opt/constants.cpp: Constant::GetSignExtendedValue"]}
{"id": "C56", "title": "Unrolling a loop preserves its effect", "statement": "After --loop-unroll or --loop-unroll-partial=N, the code in place of a loop leaves the program in the same state as the loop did: the same bodies are executed, in the same order, with the same counter values.", "quantifier": "all counted loops, all bodies and states, all unroll factors", "why_tests_cant": "The number of copies, the residual loop and its new bound depend on number of iterations, factor, comparison and step; tests compare the text of a few examples.", "anchors": ["source/opt/loop_unroller.cpp: LoopUtils::PartiallyUnroll, LoopUtils::FullyUnroll, LoopUnrollerUtilsImpl", "source/opt/loop_descriptor.cpp: Loop::GetResidualConditionValue"]}
{"id": "C57", "title": "Rewriting local variables into SSA form keeps every value", "statement": "After --ssa-rewrite (and every pass that uses it), on every path through the function each remaining instruction computes the value it computed before, and the id put in place of a load has the value the load read; every id used is defined.", "quantifier": "all valid functions, all control flow graphs, all paths, all values and meanings of the other instructions", "why_tests_cant": "Which phis are made and which are removed as trivial depends on the whole control flow graph and the order blocks are visited in; tests compare the text of a few graphs, values on paths are never compared.", "anchors": ["source/opt/ssa_rewrite_pass.cpp: SSARewriter::GetReachingDef, AddPhiOperands, TryRemoveTrivialPhi, ReplacePhiUsersWith, FinalizePhiCandidate, ApplyReplacements, RewriteFunctionIntoSSA", "source/opt/ssa_rewrite_pass.h: PhiCandidate, WriteVariable"]}
{"id": "C58", "title": "Redundancy elimination keeps every value", "statement": "Instructions that get the same value number have the same value wherever both are available, and after --local-redundancy-elimination or --redundancy-elimination every remaining instruction works on the same operand values as before, on every path; no removed id is used; a repeated computation is removed.", "quantifier": "all valid modules in SSA form, all control flow graphs with loops, all paths, all values and meanings of instructions", "why_tests_cant": "Whether two instructions compute the same depends on copies, phis, commuted operands and loops around them; tests compare the text of a few functions and never compare values on paths.", "anchors": ["source/opt/value_number_table.cpp: ValueNumberTable::AssignValueNumber, BuildDominatorTreeValueNumberTable, ComputeSameValue", "source/opt/local_redundancy_elimination.cpp: EliminateRedundanciesInBB", "source/opt/redundancy_elimination.cpp: EliminateRedundanciesFrom", "source/opt/ir_context.cpp: AddCombinatorsForCapability"]}
{"id": "C59", "title": "An accepted block layout has no overlapping or misaligned data", "statement": "If the validator accepts the Offset, ArrayStride, MatrixStride and majorness decorations of a block in the scalar, standard or extended layout, then no two scalars (or pointers or descriptors) of the block reached by different access paths share a byte, every one of them lies at a multiple of its size, every member and array element lies at the alignment Vulkan prescribes for its type, vectors do not straddle improperly, and the parts lie inside the size computed for the block; and blocks that follow the rules are accepted.", "quantifier": "all types built from scalars, vectors, matrices, arrays, runtime arrays and structs of any nesting, all decorations, all layout modes and all access paths with all array indices", "why_tests_cant": "The blocks and access paths are unbounded; arrays are checked at up to sixteen elements only, and sizes wrap at 2^32, so that agreement on tested blocks says nothing about large or deeply nested ones.", "anchors": ["source/val/validate_explicit_layout.cpp: CheckLayout, CheckStructLayout, CheckArrayLayout, CheckMatrixLayout, GetAlign, GetSize, HasImproperStraddle, GetStructMembers"]}
{"id": "C60", "title": "Accesses reported independent never touch the same memory", "statement": "If the loop dependence analysis reports that a load and a store in a loop nest are independent, then there are no two iterations of the loops in which they touch the same memory; and whatever it records in the distance vector (distance, direction, first or last iteration to peel, the single meeting point) is true of every pair of iterations in which they do. The partition of subscripts puts every pair in a group and no loop into two groups, and the analysis ends.", "quantifier": "all loop nests of counted loops, all subscript expressions, all numbers of subscripts and loops, all pairs of iterations and all values of unknowns", "why_tests_cant": "Iterations, subscripts and loop bounds are unbounded; a wrong answer of 'independent' shows only as a miscompilation by loop fusion or distribution for particular bounds.", "anchors": ["source/opt/loop_dependence.cpp: GetDependence, SIVTest, StrongSIVTest, SymbolicStrongSIVTest, WeakZeroSourceSIVTest, WeakZeroDestinationSIVTest, WeakCrossingSIVTest, GCDMIVTest, PartitionSubscripts, DeltaTest, IntersectConstraints, PropagateConstraints", "source/opt/loop_dependence_helpers.cpp: GetLowerBound, GetUpperBound, IsProvablyOutsideOfLoopBounds, GetConstantTerm"]}
{"id": "C61", "title": "After the robust access pass no pointer leaves its variable", "statement": "After --graphics-robust-access, in every execution each index of each access chain is defined and within the bounds of the array, vector, matrix, runtime array or structure it selects from, so that every pointer points into its variable and to a value of its type. A pointer which was in bounds before the pass points to the same memory after it, even if other pointers did not. The pass succeeds on every module it supports.", "quantifier": "all modules, types, chains of access chains and copies, all integer widths, all values of indices, array lengths and runtime array lengths", "why_tests_cant": "Indices are run-time values of up to 64 bits and of either signedness, combined with lengths of any size and with any split of an access path into instructions; the pass exists to hold for the values nobody tests.", "anchors": ["source/opt/graphics_robust_access_pass.cpp: ProcessAFunction, ClampIndicesForAccessChain, WidenInteger, MakeUMinInst, MakeSClampInst, MakeRuntimeArrayLengthInst", "source/opt/constants.h: GetS32BitValue, GetS64BitValue, GetU32BitValue, GetU64BitValue", "include/spirv-tools/optimizer.hpp: CreateGraphicsRobustAccessPass"]}
{"id": "C62", "title": "Conditional constant propagation keeps every execution", "statement": "After --ccp a function has exactly the executions it had before: at every point of every execution each id has the value it had, the same effects have taken place, and control is in the same block. An id is only replaced by a constant if it has the value of this constant whenever it has a value; code the pass takes to be unreachable is never executed. On a valid module the pass comes to an end without violating its own assertions.", "quantifier": "all functions (any control flow, loops, phis, switches), all executions and inputs, all foldings which are right", "why_tests_cant": "The pass is optimistic: it assumes values constant and edges dead until shown otherwise, and what it concludes about loops depends on the order in which two work lists are emptied. That the conclusions hold on every iteration of every execution needs induction over executions.", "anchors": ["source/opt/ccp_pass.cpp: VisitPhi, ComputeLatticeMeet, VisitAssignment, VisitBranch, VisitInstruction, ReplaceValues, Initialize", "source/opt/propagator.cpp: SSAPropagator::Run", "include/spirv-tools/optimizer.hpp: CreateCCPPass"]}
{"id": "C63", "title": "Vector dead code elimination keeps what a function does", "statement": "After --vector-dce a function has exactly the executions it had before, as far as memory, control flow and the instructions executed go: insertions that are bypassed, and values replaced by undefined ones, never matter. Every component that is used keeps its value. What the pass deletes is not used by anything; the pass comes to an end.", "quantifier": "all functions in SSA form (any control flow, loops, phis), all executions and inputs, all readings of undefined values", "why_tests_cant": "Which components matter is decided by a work list over all uses, through phis and loops, and one id is put in the place of another wherever it is used. That no execution ever reads a component that was dropped, or an older value of the replacement, needs an invariant over all executions.", "anchors": ["source/opt/vector_dce.cpp: FindLiveComponents, MarkUsesAsLive, MarkExtractUseAsLive, MarkInsertUsesAsLive, MarkVectorShuffleUsesAsLive, MarkCompositeContructUsesAsLive, RewriteInstructions, RewriteInsertInstruction, AddItemToWorkListIfNeeded", "source/opt/vector_dce.h: kMaxVectorSize", "source/opt/instruction.cpp: Instruction::IsScalarizable", "include/spirv-tools/optimizer.hpp: CreateVectorDCEPass"]}
{"id": "C64", "title": "Local single block load/store elimination keeps what a function does", "statement": "After --eliminate-local-single-block a function has exactly the executions it had before: each id still there has the value it had, the same effects have taken place in memory outside the variables of the function, and at the end of every block all variables have the contents they had. Only loads and stores are removed; the result is in SSA form, so nothing removed is used. A load after a store to, or load of, the same variable in the block is removed, and so is a store that is overwritten before it is read.", "quantifier": "all functions (any control flow, pointers through access chains and copies, partial accesses, calls), all executions and inputs", "why_tests_cant": "Which store a load sees is decided by maps updated instruction by instruction, and a store is removed long after it was met. That no execution ever reads a variable while a removed store is outstanding, and that pointers not followed by the pass never reach the variable, needs an invariant over all executions.", "anchors": ["source/opt/local_single_block_elim_pass.cpp: HasOnlySupportedRefs, LocalSingleBlockLoadStoreElim, ProcessImpl", "source/opt/mem_pass.cpp: IsNonPtrAccessChain, GetPtr, IsTargetVar", "source/opt/instruction.cpp: Instruction::GetBaseAddress", "include/spirv-tools/optimizer.hpp: CreateLocalSingleBlockLoadStoreElimPass"]}
{"id": "C65", "title": "Local single store elimination keeps what a function does", "statement": "After --eliminate-local-single-store a function has exactly the executions it had before: each id still there has the value it had, and memory, the variables of the function included, has the same contents at every point. Only loads are removed; the result is in SSA form, so nothing removed is used. All loads of a whole variable which is stored to once (or only initialized) and whose address is used only to access it are removed where the store dominates them.", "quantifier": "all functions (any control flow, loops, pointers through access chains and copies, initializers), all executions and inputs", "why_tests_cant": "The store and the loads may be anywhere in the control flow graph. That the one store has been executed whenever a load is reached, that the value it stored is still the one of the id, also when a loop computes it again, and that no other access reaches the variable, are claims about all executions; loads are rewritten one variable after the other, so later decisions are made about a function already changed.", "anchors": ["source/opt/local_single_store_elim_pass.cpp: LocalSingleStoreElim, ProcessVariable, FindSingleStoreAndCheckUses, FindUses, FeedsAStore, RewriteLoads", "source/opt/dominator_analysis.cpp: DominatorAnalysisBase::Dominates", "include/spirv-tools/optimizer.hpp: CreateLocalSingleStoreElimPass"]}
{"id": "C66", "title": "Aggressive dead code elimination keeps what a function does", "statement": "After --eliminate-dead-code-aggressive, if a function could finish with some results, sequence of visible effects and contents of the memory others can see, it still can, and everything it could be seen to do while running can still be seen. If the function can always finish, nothing is added either. Nothing an execution of the result gets to names an id or label that is gone, and every instruction it gets to has an effect, is used, or may write what something kept reads. The pass itself always finds the merge blocks it looks for.", "quantifier": "all functions of shaders with structured control flow (nested selections, switches and loops, breaks and continues), all executions, inputs and meanings of instructions", "why_tests_cant": "Liveness is a fixed point over operands, stores to local variables, blocks, and the selections and loops around them, and whole constructs are replaced by one branch. That no execution leaves a removed construct other than to its merge block, and that nothing computed, stored or selected in it matters afterwards, needs an invariant over all functions and executions.", "anchors": ["source/opt/aggressive_dead_code_elim_pass.cpp: IsLocalVar, AddStores, ProcessLoad, AddBreaksAndContinuesToWorklist, AggressiveDCE, KillDeadInstructions, ProcessWorkList, MarkLoadedVariablesAsLive, MarkBlockAsLive, InitializeWorkList, GetHeaderBlock, GetBranchForNextHeader, BlockIsInConstruct", "source/opt/struct_cfg_analysis.cpp: AddBlocksInFunction", "source/opt/mem_pass.cpp: IsPtr, GetPtr", "include/spirv-tools/optimizer.hpp: CreateAggressiveDCEPass"]}
{"id": "C67", "title": "Flattening decoration groups keeps all decorations", "statement": "--flatten-decorations comes to an end on every valid module. Afterwards every id and every structure member carries exactly the decorations it carried before, directly or through groups; no decoration group is left, and nothing names one. Other decorations and names are untouched and in the same order.", "quantifier": "all modules with valid decoration groups: any number of groups, targets, uses and names in any order", "why_tests_cant": "A decoration has to reach every target of every use of its group, wherever these stand among the annotations, and the loops over annotations and names change the lists they walk over. Tests cover some lists; termination and completeness are claims about all of them.", "anchors": ["source/opt/flatten_decoration_pass.cpp: FlattenDecorationPass::Process", "source/opt/reflect.h: IsAnnotationInst, IsDebug2Inst", "source/val/validate_annotation.cpp: ValidateDecorationGroup, ValidateGroupDecorate, ValidateGroupMemberDecorate", "include/spirv-tools/optimizer.hpp: CreateFlattenDecorationPass"]}
{"id": "C68", "title": "Moving private variables into functions keeps behaviour", "statement": "--private-to-local moves a private variable of the module into a function only if the module does the same as before. The variable is moved exactly if one function alone uses it and its address is only read from and written to; types and entry point interfaces are brought into line, and everything else is untouched.", "quantifier": "all modules, entry points, initial contents, meanings of operations, and runs of any length, ended or not", "why_tests_cant": "What a variable holds between two activations of a function depends on the whole run: tests run the pass on modules in which the function is entered once. That no address escapes is a claim about all chains of uses.", "anchors": ["source/opt/private_to_local_pass.cpp: PrivateToLocalPass::Process, FindLocalFunction, MoveVariable, IsValidUse, UpdateUses", "include/spirv-tools/optimizer.hpp: CreatePrivateToLocalPass"]}
{"id": "C69", "title": "Conflicting interface locations are found, and none are made up", "statement": "For a Vulkan target the validator accepts an entry point only if no two of its interface variables or block members of the same kind (inputs, outputs by index, per patch variables, geometry streams, tile images) take the same component of the same location; it reports a conflict only if there is one; and an interface whose variables or block members all have locations that do not overlap is accepted.", "quantifier": "all entry points of all execution models, all interfaces with any number of variables of any types, nested arrays, matrices, structures and blocks, with any locations, components, indices and streams", "why_tests_cant": "The tests try a conflict for single types, one array and one component at a time. Whether every slot of every nesting of arrays, vectors and matrices is marked, and none that is not taken, ranges over all types and all pairs of variables.", "anchors": ["source/val/validate_interfaces.cpp:NumConsumedLocations", "source/val/validate_interfaces.cpp:NumConsumedComponents", "source/val/validate_interfaces.cpp:GetLocationsForVariable", "source/val/validate_interfaces.cpp:ValidateLocations"]}
{"id": "C70", "title": "Turning branches into selects keeps what a shader computes", "statement": "--if-conversion may replace a value merged at the end of a selection by a select on the condition of the branch. Every run of the function then goes through the same blocks, with the same values of all ids and the same effects, as before; no run gets stuck that did not.", "quantifier": "all functions in SSA form with reducible control flow, all selections and merge blocks in them, all meanings of the instructions, all inputs and all runs, loops included", "why_tests_cant": "The tests convert single if statements and compare text. Whether the value chosen is the one of the side that was taken depends on the whole control flow graph: loops around and inside the selection, nested branches, sides that meet, conditions recomputed on the way.", "anchors": ["source/opt/if_conversion.cpp:IfConversion::Process", "source/opt/if_conversion.cpp:IfConversion::CheckBlock", "source/opt/if_conversion.cpp:IfConversion::CheckPhiUsers"]}
{"id": "C71", "title": "Sinking of loads and access chains keeps what a shader computes, and ends", "statement": "--code-sink moves loads and access chains to later blocks. Every run of the function then goes through the same blocks in the same order, with the same memory and output and the same values of all other instructions and of all values that decide branches or are returned; no run gets stuck that did not. The function stays valid: each id is defined on every path to its uses. The search for a block ends.", "quantifier": "all valid functions with loops and selections, all sequences of moves, all meanings of the instructions, all inputs and all runs", "why_tests_cant": "The tests compare the text of a few small shaders. Whether the new block is on every path to every use, is visited again whenever the value is computed again, and sees the same operands depends on all paths through the control flow graph, with loops around the old block, the new one or both.", "anchors": ["source/opt/code_sink.cpp:CodeSinkingPass::SinkInstruction", "source/opt/code_sink.cpp:CodeSinkingPass::FindNewBasicBlockFor", "source/opt/code_sink.cpp:CodeSinkingPass::IntersectsPath", "source/opt/code_sink.cpp:CodeSinkingPass::ReferencesMutableMemory", "source/opt/code_sink.cpp:CodeSinkingPass::HasPossibleStore"]}
{"id": "C72", "title": "Hoisting out of loops keeps what a shader computes", "statement": "--loop-invariant-code-motion moves instructions from loops to the block before them. Every run of the function then goes through the same blocks in the same order, with the same memory and output and the same values of all other instructions and of all values that decide branches or are returned; no run gets stuck or becomes undefined that was not. The function stays valid: each id is defined on every path to its uses. Loads are moved only if they are known to read memory that is not written.", "quantifier": "all valid functions with nested loops and selections, all sequences of hoists, all meanings of the instructions, all inputs and all runs", "why_tests_cant": "The tests compare the text of a few loops. Whether the block before the loop is on every path to every use, whether all operands have their values there, and whether an instruction that was not reached may be computed anyway depends on all paths through the control flow graph and on all inputs.", "anchors": ["source/opt/licm_pass.cpp:LICMPass::ProcessFunction", "source/opt/licm_pass.cpp:LICMPass::AnalyseAndHoistFromBB", "source/opt/licm_pass.cpp:LICMPass::HoistInstruction", "source/opt/loop_descriptor.cpp:Loop::FindLoopPreheader", "source/opt/loop_descriptor.cpp:Loop::ShouldHoistInstruction", "source/opt/loop_descriptor.cpp:Loop::AreAllOperandsOutsideLoop", "source/opt/instruction.cpp:Instruction::IsOpcodeCodeMotionSafe"]}
{"id": "C73", "title": "Merging of blocks keeps what a shader computes", "statement": "--merge-blocks joins a block with its only successor when it is that block's only predecessor, and replaces the phis of the successor by their one value. Every run of the function before is a run of the function after, without the blocks that are gone, and the other way round: the same memory and output, the same branches taken, the same values of all other ids and of what is returned. The function stays valid: definitions dominate uses, phis have one value for each predecessor, selection headers dominate their merge blocks. No block becomes the merge block of two headers, and no loop header gets a terminator other than a branch.", "quantifier": "all valid functions, all sequences of merges, all meanings of the instructions, all inputs and all runs", "why_tests_cant": "The tests compare the text of some functions. Whether a phi can be replaced everywhere, whether labels in phis, branches and merge instructions still mean the same, and whether structure survives depends on all other blocks of the function and on all merges before.", "anchors": ["source/opt/block_merge_util.cpp:CanMergeWithSuccessor", "source/opt/block_merge_util.cpp:MergeWithSuccessor", "source/opt/block_merge_util.cpp:EliminateOpPhiInstructions", "source/opt/block_merge_util.cpp:IsMerge", "source/opt/block_merge_util.cpp:IsContinue", "source/opt/block_merge_pass.cpp:BlockMergePass::MergeBlocks"]}
{"id": "C74", "title": "Elimination of dead branches keeps what a shader computes", "statement": "--eliminate-dead-branches replaces branches and switches on constants by branches to the one target they can take, removes blocks that cannot be reached any more, and drops or rewrites the values phis had from them. Runs of the function before and after are the same: the same blocks in the same order, the same memory and output, the same values of all ids but phis that were replaced, the same results. The function stays valid: each phi has one value for each predecessor, also where the continue target of a loop is only kept as an empty block that goes back to the header. Merge blocks and continue targets named by headers that are left are still there, and no other unreachable blocks are.", "quantifier": "all valid functions, all constants, all meanings of the instructions, all inputs and all runs", "why_tests_cant": "The tests compare the text of some functions. Which blocks are live, and which values of which phis must go, stay or become undef, depends on the whole graph of blocks, on loops with dead continue targets and on the phis that were replaced before.", "anchors": ["source/opt/dead_branch_elim_pass.cpp:DeadBranchElimPass::MarkLiveBlocks", "source/opt/dead_branch_elim_pass.cpp:DeadBranchElimPass::SimplifyBranch", "source/opt/dead_branch_elim_pass.cpp:DeadBranchElimPass::MarkUnreachableStructuredTargets", "source/opt/dead_branch_elim_pass.cpp:DeadBranchElimPass::FixPhiNodesInLiveBlocks", "source/opt/dead_branch_elim_pass.cpp:DeadBranchElimPass::EraseDeadBlocks", "source/opt/dead_branch_elim_pass.cpp:DeadBranchElimPass::GetConstCondition"]}
{"id": "C75", "title": "Combining access chains keeps where every pointer points", "statement": "--combine-access-chains replaces an access chain which starts from another access chain by one from the base of that chain. Every pointer of the module keeps its address and the type it points to, in every run. Structures are still indexed by constants. With logical addressing and 32-bit indices no access chain starts from an access chain afterwards. A combined chain promises to stay in bounds only when both parts did.", "quantifier": "all modules, all layouts of types in memory, all values of indices, any number and order of chains", "why_tests_cant": "The tests compare the text for some chains. Addresses depend on the values of the indices, their signedness, the types on the way, the strides, and on what was combined before.", "anchors": ["source/opt/combine_access_chains.cpp:CombineAccessChains::CombineAccessChain", "source/opt/combine_access_chains.cpp:CombineAccessChains::CombineIndices", "source/opt/combine_access_chains.cpp:CombineAccessChains::CreateNewInputOperands", "source/opt/combine_access_chains.cpp:CombineAccessChains::UpdateOpcode", "source/opt/combine_access_chains.cpp:CombineAccessChains::GetIndexedType"]}
{"id": "C76", "title": "The control dependence graph has exactly the branches that decide whether a block runs", "statement": "For a function with an exit, the control dependence analysis ends without undefined behaviour. The sources of a block are exactly the pairs of a branching block and a successor of it, such that the block is certain to be visited after that successor and not already certain at the branch. The pseudo entry is a source of exactly the blocks that are certain to be visited. The targets are the same dependences listed by their source. HasBlock is true for exactly the blocks from which an exit can be reached; IsDependent is control dependence as defined by paths.", "quantifier": "all functions, any control flow (irreducible loops, unreachable blocks, blocks that cannot exit, several exits), any number of blocks", "why_tests_cant": "The tests compare the graph for some hand-written functions. That the post-dominance frontiers computed in one traversal of the tree are the path-based relation needs an argument about all graphs.", "anchors": ["source/opt/control_dependence.cpp:ControlDependenceAnalysis::ComputePostDominanceFrontiers", "source/opt/control_dependence.cpp:ControlDependenceAnalysis::ComputePostDominanceFrontierForNode", "source/opt/control_dependence.cpp:ControlDependenceAnalysis::ComputeForwardGraphFromReverse", "source/opt/control_dependence.h:ControlDependenceAnalysis::IsDependent", "source/opt/control_dependence.h:ControlDependenceAnalysis::HasBlock", "source/opt/tree_iterator.h:PostOrderTreeDFIterator"]}
{"id": "C77", "title": "The divergence lint reports derivatives in divergent control flow, with an explanation", "statement": "spirv-lint's analysis ends for every function. A block or value is reported above uniform only when divergence flows to it from an instruction that brings it in, through operands, the blocks branches are in, and the conditions of branches. Such a flow is not missed. The explanation printed for a warning ends.", "quantifier": "all functions, all control flow, all orders of visits the engine produces, all storage classes of variables read", "why_tests_cant": "The tests look at the levels for some functions. That nothing is missed depends on every instruction being visited again after each change of what it depends on, along loops of any shape; the explanation follows links which the analysis changes while it runs.", "anchors": ["source/lint/divergence_analysis.cpp:DivergenceAnalysis::VisitBlock", "source/lint/divergence_analysis.cpp:DivergenceAnalysis::VisitInstruction", "source/lint/divergence_analysis.cpp:DivergenceAnalysis::EnqueueSuccessors", "source/lint/divergence_analysis.cpp:DivergenceAnalysis::ComputeVariableDivergence", "source/lint/lint_divergent_derivatives.cpp:CheckDivergentDerivatives", "source/lint/lint_divergent_derivatives.cpp:PrintDivergenceFlow"]}
{"id": "C78", "title": "Resolving binding conflicts gives the lowest conflict-free numbers", "statement": "After --resolve-binding-conflicts no two resources used by the call tree of one entry point share descriptor set and binding; the order of bindings within a set of an entry point is kept, samplers come after images at the same number, no number is lowered, and no number is higher than it has to be; resources without conflict keep theirs; a change is reported exactly when a number changed; and the pass ends.", "quantifier": "all modules without recursive calls: any number of resources, sets, entry points sharing resources, call graphs, and all orders in which hash maps and sets are walked through", "why_tests_cant": "Moving one resource can cause a conflict in another entry point that shares it, so the pass repeats until nothing changes; whether that settles, and on what, depends on all entry points together and on the order of unordered containers, which tests do not control.", "anchors": ["source/opt/resolve_binding_conflicts_pass.cpp:ResolveBindingConflictsPass::Process", "source/opt/resolve_binding_conflicts_pass.cpp:ResolveConflicts", "source/opt/resolve_binding_conflicts_pass.cpp:Less", "source/opt/resolve_binding_conflicts_pass.cpp:Merge", "source/opt/resolve_binding_conflicts_pass.cpp:CallGraph", "source/opt/resolve_binding_conflicts_pass.cpp:GetVarBindings"]}
{"id": "C79", "title": "Removing members that are not used keeps every part that is", "statement": "--eliminate-dead-members changes no type whose values are seen from outside (inputs, outputs, storage buffers, physical pointers) or as a whole (stores, copies, returns, unknown instructions); every extract, access chain, array length, composite construction, constant, member name and member decoration that stays refers to the same part as before, with its type, so that what is read and written is the same; and no instruction that stays uses one that was removed.", "quantifier": "all modules: any types nested to any depth, any instructions and paths, all values", "why_tests_cant": "Which members stay depends on all uses of a type in the module, and the new indices on all members before; nested structures, arrays and shared types combine without limit, and each use has to be rewritten with types that have already been changed.", "anchors": ["source/opt/eliminate_dead_members_pass.cpp:EliminateDeadMembersPass::FindLiveMembers", "source/opt/eliminate_dead_members_pass.cpp:EliminateDeadMembersPass::RemoveDeadMembers", "source/opt/eliminate_dead_members_pass.cpp:EliminateDeadMembersPass::GetNewMemberIndex", "source/opt/eliminate_dead_members_pass.cpp:EliminateDeadMembersPass::UpdateAccessChain", "source/opt/eliminate_dead_members_pass.cpp:EliminateDeadMembersPass::UpdateCompositeInsert", "source/opt/eliminate_dead_members_pass.cpp:EliminateDeadMembersPass::UpdateConstantComposite"]}
{"id": "C80", "title": "Struct packing gives the offsets of the layout rules", "statement": "After --struct-packing the offsets of the structure are those of the chosen rules (std140, std430, scalar): each a multiple of the alignment of its type, no two members overlap, and they are the lowest such offsets; with HLSL rules no scalar or vector crosses a row of 16 bytes; no offset is raised: if a rule would raise one the pass fails; everything else stays.", "quantifier": "all structures: any number of members, arrays and structures nested to any depth, all sizes up to 4 GiB, all old offsets", "why_tests_cant": "Offsets depend on all members before and, through nested types, on recursive alignments and paddings, computed with 32-bit numbers that wrap; tests compare a few structures.", "anchors": ["source/opt/struct_packing_pass.cpp:StructPackingPass::assignStructMemberOffsets", "source/opt/struct_packing_pass.cpp:StructPackingPass::getPackedAlignment", "source/opt/struct_packing_pass.cpp:StructPackingPass::getPackedSize", "source/opt/struct_packing_pass.cpp:StructPackingPass::getPackedArrayStride", "source/opt/struct_packing_pass.cpp:alignPow2", "include/spirv-tools/optimizer.hpp:CreateStructPackingPass"]}
{"id": "C81", "title": "Unifying constants keeps all values and leaves no duplicates", "statement": "After --unify-const every id that was used has the value it had, under every specialization, at the id that takes its place; no two undecorated constants that may be unified have the same opcode, type and operands; specialization constants with their own number, decorated constants, types and variables stay; no use of a removed constant is left; the order of definitions is kept; a change is reported exactly when a constant was removed.", "quantifier": "all lists of types, constants and variables, nested composites and operations to any depth, all specializations", "why_tests_cant": "Composites become equal only after their parts have been unified, to any depth, and a merge of constants that can be specialized apart shows only for some specializations; tests look at a few modules with default values.", "anchors": ["source/opt/unify_const_pass.cpp:UnifyConstantPass::Process", "source/opt/unify_const_pass.cpp:ResultIdTrie::LookupEquivalentResultFor", "source/opt/unify_const_pass.cpp:ResultIdTrie::GetLookUpKeys", "source/opt/unify_const_pass.cpp:Node::GetOrCreateTrieNodeFor"]}
