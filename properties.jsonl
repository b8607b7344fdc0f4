{"id": "C01", "title": "Accepted block schedules compute the specified stack", "statement": "If the block validator accepts a sequence of instruction ids for a block specification, then running that sequence on an EVM-like stack machine, from any stack whose top holds the values of the source layout, never underflows, and ends with a stack whose top holds the values of the target layout, whatever the uninterpreted instructions compute (as long as those flagged commutative are). With junk allowed only the cells below the target layout may differ; without it nothing else is left between the target layout and the caller's part of the stack.", "quantifier": "all specifications, all id sequences, all interpretations of the operations, all initial values and all deeper stack contents", "why_tests_cant": "the interpretation of opcodes, the values and the deeper stack range over infinite sets; a test fixes one of each", "anchors": ["src/analysis/greedy_validation.py:check_execution_from_ids", "src/analysis/symbolic_execution.py:execute_instr_id"]}
{"id": "C02", "title": "Accepted schedules respect every dependence", "statement": "In an accepted sequence both ends of every declared dependence occur, and every occurrence of the first instruction precedes every occurrence of the second. Conversely a sequence violating one pair is rejected (either a False answer or an exception).", "quantifier": "all id sequences and all dependence lists", "why_tests_cant": "quantifies over all sequences and all pairs of occurrences", "anchors": ["src/analysis/greedy_validation.py:check_deps", "src/analysis/greedy_validation.py:check_execution_from_ids"]}
{"id": "C03", "title": "Accepted schedules run each effect exactly once", "statement": "In an accepted sequence each instruction of the specification that is flagged as touching memory, storage or logs (GAS excepted) occurs exactly once.", "quantifier": "all specifications and id sequences", "why_tests_cant": "quantifies over all sequences", "anchors": ["src/analysis/greedy_validation.py:check_execution_from_ids"]}
{"id": "C04", "title": "Dependence-respecting reorderings are equivalent", "statement": "If two operations not related by the dependence list always commute on the machine state, then any two duplicate-free schedules of the same operations which both respect the dependences lead every initial state to the same final state.", "quantifier": "all machine state types, operation semantics, dependence relations, schedules of any length and initial states", "why_tests_cant": "quantifies over all linearisations and all semantics", "anchors": ["src/analysis/instruction_dependencies.py:compute_memory_dependences", "src/analysis/greedy_validation.py:check_deps"]}
{"id": "C05", "title": "Constant memory intervals: reported independent iff disjoint", "statement": "For constant offsets and sizes two memory accesses of non-zero size are reported as dependent exactly when some byte address belongs to both; an access reported independent never shares a byte with the other. Any non-constant bound is reported as dependent.", "quantifier": "all pairs of offsets and sizes (unbounded integers)", "why_tests_cant": "infinite domain of offsets and sizes", "anchors": ["src/analysis/instruction_dependencies.py:overlap", "src/analysis/instruction_dependencies.py:are_dependent_interval"]}
{"id": "C06", "title": "Memory dependences cover every conflicting pair of memory instructions", "statement": "For every straight-line list of instructions, if two of them are not reported as memory dependent then, for every assignment of values to the variables, the byte ranges that one of them writes are disjoint from the byte ranges the other one reads or writes.", "quantifier": "all instruction lists and all values of the variables", "why_tests_cant": "quantifies over all programs and run-time values", "anchors": ["src/analysis/instruction_dependencies.py:compute_memory_dependences", "src/analysis/instruction_dependencies.py:get_interval", "src/analysis/instruction_dependencies.py:get_expression"]}
{"id": "C07", "title": "Storage and transient dependences cover every aliasing pair", "statement": "If two storage (transient storage) accesses, one of them a write, are not reported as dependent then their keys differ for every assignment of values to variables.", "quantifier": "all instruction lists, all interpretations and values", "why_tests_cant": "aliasing is a semantic property of all run-time values", "anchors": ["src/analysis/instruction_dependencies.py:compute_storage_dependences", "src/analysis/instruction_dependencies.py:compute_transient_dependences", "src/analysis/instruction_dependencies.py:are_dependent_accesses"]}
{"id": "C08", "title": "Dependences are oriented along program order", "statement": "Every dependence computed for a block is a pair of positions i < j of the block, so the dependence relation is acyclic and the original program order always satisfies it.", "quantifier": "all instruction lists", "why_tests_cant": "all programs", "anchors": ["src/analysis/instruction_dependencies.py:compute_storage_dependences", "src/analysis/instruction_dependencies.py:compute_memory_dependences", "src/analysis/instruction_dependencies.py:compute_gas_dependences"]}
{"id": "C09", "title": "Unused-instruction removal keeps everything observable", "statement": "An instruction reported as unused is not flagged as an effect and is not needed, directly or through other instructions, by the final stack nor by any effect; conversely everything needed is kept. Hence deleting the unused ones leaves the value of every final stack variable and of every argument of an effect unchanged.", "quantifier": "all instruction lists and final stacks, all interpretations", "why_tests_cant": "transitive closure over arbitrary dependency graphs", "anchors": ["src/parser/utils_parser.py:detect_unused_instructions", "src/parser/utils_parser.py:compute_dependency_graph", "src/parser/utils_parser.py:dfs"]}
{"id": "C10", "title": "Byte size of pushed constants is exact and minimal", "statement": "The reported number of bytes n of a constant v satisfies v < 256^n and no smaller n (at least 1) does; it is at most 32 for every 256-bit word, negative constants are measured in two's complement, and the size of PUSH is n + 1; every EVM operation takes one byte, and the pseudo instructions of the assembler (tags, data, libraries, immutables) have the sizes of the layout of the assembler.", "quantifier": "all integers", "why_tests_cant": "infinite domain", "anchors": ["src/parser/utils_parser.py:number_encoding_size", "src/parser/utils_parser.py:get_num_bytes_int", "src/parser/utils_parser.py:get_ins_size"]}
{"id": "C11", "title": "Liveness is sound", "statement": "If along some path from a point of the control-flow graph a variable is used before being redefined (a phi use counting as a use at the end of the corresponding predecessor), then the variable belongs to the live set computed for that point.", "quantifier": "all control-flow graphs, all paths of any length", "why_tests_cant": "quantifies over all graphs and paths", "anchors": ["src/liveness/liveness_analysis.py:LivenessAnalysisInfoSSA", "src/liveness/liveness_state.py:LivenessBlockInfoSSA", "src/analysis/fixpoint_analysis.py:BackwardsAnalysis"]}
{"id": "C12", "title": "Liveness is precise", "statement": "A variable in a computed live set really is used on some path before being redefined: at every step of the fixpoint iteration each live set only contains genuinely live variables.", "quantifier": "all control-flow graphs, all iteration orders and steps", "why_tests_cant": "quantifies over all graphs and worklist histories", "anchors": ["src/liveness/liveness_analysis.py:LivenessAnalysisInfoSSA", "src/analysis/fixpoint_analysis.py:BackwardsAnalysis"]}
{"id": "C13", "title": "The fixpoint engine stops at a solution", "statement": "When the worklist becomes empty every analysed block satisfies the dataflow equations with respect to every analysed successor; and the iteration always terminates.", "quantifier": "all control-flow graphs and worklist histories", "why_tests_cant": "termination and invariants over all histories", "anchors": ["src/analysis/fixpoint_analysis.py:BackwardsAnalysis"]}
{"id": "C14", "title": "Layout combination loses and invents nothing", "statement": "Combining the retained part of a stack (with gaps) with the list of variables to place keeps the retained variables and the placed variables, each exactly as many times as given; where the gaps are to be closed no gap is left, and where not exactly one gap per placed variable disappears and no retained variable moves.", "quantifier": "all lists", "why_tests_cant": "all sizes and gap patterns", "anchors": ["src/liveness/utils.py:combine_lists_with_order", "src/liveness/utils.py:merge_list_swapping_topmost", "src/liveness/utils.py:combine_lists_with_junk", "src/liveness/utils.py:trim_none"]}
{"id": "C15", "title": "Junk suffix choice is optimal", "statement": "The junk suffix chosen maximises (gaps minus kept elements) over all suffixes, its value is the returned count, and among the maximisers it is the shortest one.", "quantifier": "all lists", "why_tests_cant": "optimality over all suffixes of all lists", "anchors": ["src/liveness/utils.py:find_longest_none_sequence"]}
{"id": "C16", "title": "Output layouts hold exactly what is needed", "statement": "The output stack layout starts with the required top elements, contains every live variable, has no gaps, has no duplicates outside the required top elements and the junk part, and the junk part is the untouched bottom of the input stack.", "quantifier": "all input stacks, live sets, required tops, depth orders", "why_tests_cant": "all sizes", "anchors": ["src/liveness/stack_layout_methods.py:output_stack_layout"]}
{"id": "C17", "title": "Predecessors of a join agree on the stack shape", "statement": "All the predecessors of a join block leave stacks of equal length which position by position hold, for each element of the join's input stack, either that element or the argument of its phi function for that predecessor; executing the phi functions in parallel therefore yields the join's input stack. No variable live at the end of a predecessor gets lost.", "quantifier": "all joins, phi functions, liveness sets", "why_tests_cant": "all graphs and stacks", "anchors": ["src/liveness/stack_layout_methods.py:unify_stack_joint", "src/liveness/stack_layout_methods.py:generate_phi_func"]}
{"id": "C18", "title": "Duplicate copies on a stack get distinct names", "statement": "Before a block is specified, repeated elements of its input stack are renamed: the deepest occurrence of each variable stays in place under its own name, and every other occurrence gets a name of its own, distinct from all other names on the stack.", "quantifier": "all stacks", "why_tests_cant": "all multiplicities", "anchors": ["src/liveness/layout_generation.py:substitute_duplicates"]}
{"id": "C19", "title": "Variable renaming is a consistent injective renaming", "statement": "Renaming assigns each (function, variable) pair its own fresh name: two occurrences of a variable of one function get one name, different variables or different functions never share a name, constants are untouched.", "quantifier": "all objects, functions and blocks", "why_tests_cant": "all programs", "anchors": ["src/cfg_methods/variable_renaming.py"]}
{"id": "C20", "title": "Renaming preserves the meaning of code", "statement": "Running the renamed instructions from a correspondingly renamed environment yields the renamed result, with the same operations applied to the same values.", "quantifier": "all instruction lists and environments", "why_tests_cant": "all programs and run-time values", "anchors": ["src/cfg_methods/variable_renaming.py", "src/cfg_methods/function_inlining.py:_generate_function_to_inline"]}
{"id": "C21", "title": "Tags identify blocks", "statement": "At any time the tags handed out in an object are exactly 1..n without repetition, asking again for a block's tag returns the same tag, and after any sequence of insertions and block splits distinct blocks have distinct tags, jumps still designate (the first half of) their target, and no other tag changes; provided the names chosen for the halves of a split block are not already in use.", "quantifier": "all sequences of tag requests and splits, all block lists", "why_tests_cant": "quantifies over all histories", "anchors": ["src/cfg_methods/jump_insertion.py:tag_from_tag_dict", "src/cfg_methods/sub_block_generation.py:modify_block_list_split"]}
{"id": "C22", "title": "Splitting a block preserves the program", "statement": "Splitting a block that does not branch to itself, at an instruction after its phi functions, in a graph whose predecessor and successor lists agree and in which no branch has the same target twice: the first half followed by the second half is the original instruction list, every edge into the block now enters the first half, every edge out leaves the second half, the lists agree again, and every execution of the graph performs the same operations with the same values as before. (For a block that branches to itself, or a branch with twice the same target, this is false: the split raises an exception or leaves an edge to a block that no longer exists.)", "quantifier": "all graphs, blocks and split points, executions of any length", "why_tests_cant": "all programs and executions", "anchors": ["src/cfg_methods/cfg_block_actions/split_block.py:SplitBlock"]}
{"id": "C23", "title": "Merging two blocks preserves the program", "statement": "After merging a block with its unique successor, whose only predecessor it is, every execution performs the same operations with the same values as before and predecessor lists stay consistent with successor lists, provided the second block is not the entry, has no phi functions and does not branch back to the first. (Without each of these provisos it is false.)", "quantifier": "all graphs, mergeable pairs, executions of any length", "why_tests_cant": "all programs and executions", "anchors": ["src/cfg_methods/cfg_block_actions/merge_blocks.py:MergeBlocks", "src/cfg_methods/sub_block_generation.py:_nodes_to_merge"]}
{"id": "C24", "title": "Successive merges refer to the current block", "statement": "While the selected block pairs are merged one after the other, looking up any original block name always yields the block that currently contains it, no merge fails, and the whole pass preserves the behaviour of the program, under the provisos of C23 for the pairs and for runs of merged blocks.", "quantifier": "all sequences of merges", "why_tests_cant": "all histories", "anchors": ["src/cfg_methods/utils.py:union_find_search", "src/cfg_methods/sub_block_generation.py:combine_blocks_block_list"]}
{"id": "C25", "title": "Inlining addresses the intended call", "statement": "After any sequence of earlier inlinings in the same block, the computed (sub-block, index) pair designates exactly the original call instruction.", "quantifier": "all blocks, all orders of inlinings of different calls of the block, any number of results and exits", "why_tests_cant": "all histories", "anchors": ["src/cfg_methods/function_inlining.py:_determine_idx", "src/cfg_methods/function_inlining.py:inline_functions_cfg_object"]}
{"id": "C26", "title": "Removed blocks are unreachable", "statement": "Blocks are removed exactly when no path from the start block leads to them; the others are unchanged, so no execution is affected. If no removed block led to a kept one, predecessor lists stay consistent. (Otherwise they keep the names of removed blocks.)", "quantifier": "all graphs and paths", "why_tests_cant": "all graphs", "anchors": ["src/cfg_methods/sub_block_generation.py:_nodes_to_remove"]}
{"id": "C27", "title": "The comes_from validator is exact", "statement": "If the validator accepts a block list then for every block that an edge from a reachable block enters its comes_from list holds precisely its reachable predecessors, each once; if that holds the validator accepts. (The list of an entry block without reachable predecessors is not looked at.)", "quantifier": "all graphs", "why_tests_cant": "all graphs", "anchors": ["src/analysis/cfg_validation.py:validate_block_list_comes_from"]}
{"id": "C28", "title": "Phi webs partition variables", "statement": "Two variables end in the same phi web exactly when they are connected through a chain of phi functions; the reported number of webs and the number of members are exact.", "quantifier": "all sequences of joins", "why_tests_cant": "all histories", "anchors": ["src/reparation/phi_webs.py"]}
{"id": "C29", "title": "Spilled variables that interfere get different colours", "statement": "At any program point two variables simultaneously live in memory never share a colour.", "quantifier": "all dominance trees and live ranges", "why_tests_cant": "all programs", "anchors": ["src/reparation/tree_scan.py", "src/reparation/colour_assignment.py"]}
{"id": "C30", "title": "Spill slots never overlap", "statement": "Distinct colours are mapped to memory words that do not overlap, and the slots of one function never overlap those of another nor memory below the reserved base.", "quantifier": "all colour sets, all block lists", "why_tests_cant": "all sizes", "anchors": ["src/reparation/repair_unreachable.py"]}
{"id": "C31", "title": "Phi copies behave as a parallel assignment", "statement": "The code emitted at the end of a block for the phi functions of its successor leaves in each phi's slot the value its argument had before the code ran, and leaves the stack unchanged.", "quantifier": "all sets of phi functions, slots, stacks and memories", "why_tests_cant": "all run-time values and permutations", "anchors": ["src/reparation/tree_scan.py:_emit_copies", "src/reparation/tree_scan.py:_emit_valid_bytecode"]}
{"id": "C32", "title": "Placeholder insertion keeps positions consistent", "statement": "When VGET/VSET copies are inserted in a schedule, the recorded positions keep designating the same instructions and the number of pending uses of each variable equals the number still in the schedule.", "quantifier": "all schedules and insertion sequences", "why_tests_cant": "all histories", "anchors": ["src/greedy/greedy_info.py", "src/reparation/insert_placeholders.py"]}
{"id": "C33", "title": "Fall-through blocks are placed contiguously", "statement": "In the emitted code of a block list every block occurs exactly once and a block that falls through is immediately followed by the block it falls to.", "quantifier": "all graphs", "why_tests_cant": "all graphs", "anchors": ["src/solution_generation/reconstruct_bytecode.py:traverse_cfg_block_list", "src/solution_generation/reconstruct_bytecode.py:locate_fallsto_block"]}
{"id": "C34", "title": "Disassembly recovers labels", "statement": "Translating bytecode to assembly consumes the bytes exactly once, in order, every instruction with its immediate, and a pushed value becomes a label exactly when it is the position of a jump destination.", "quantifier": "all byte strings", "why_tests_cant": "all inputs", "anchors": ["src/solution_generation/bytecode2asm.py"]}
{"id": "C35", "title": "Natural loops are exact", "statement": "The natural loop of a back edge (tail, head) consists of the head and exactly the nodes that reach the tail without going through the head.", "quantifier": "all graphs and edges", "why_tests_cant": "all graphs and paths", "anchors": ["src/graphs/cfg.py:find_natural_loop"]}
{"id": "C36", "title": "Back edges break all cycles", "statement": "Removing the reported back edges leaves the part of the graph reachable from the start acyclic, and every reported edge lies on a cycle.", "quantifier": "all graphs", "why_tests_cant": "all graphs", "anchors": ["src/graphs/cfg.py:find_back_edges"]}
{"id": "C37", "title": "Splitting concatenated JSON documents", "statement": "A file which is a concatenation of balanced brace-delimited documents separated by text without braces is cut at exactly the document boundaries, in order, and no document overwrites another. (Braces inside strings count as braces, and apostrophes become quotation marks.)", "quantifier": "all files", "why_tests_cant": "all inputs", "anchors": ["src/parser/utils_parser.py:split_json"]}
{"id": "C38", "title": "Cost estimation terminates, is exact and flags recursion", "statement": "The cost estimation terminates on every call graph and yields an entry for exactly the functions of the object. The gas of a function is infinite exactly when the function can reach, by calls, a function that can call itself, directly or not. Every other entry is the sum of the costs of the instructions of the function, each call counting the entry of the function called.", "quantifier": "all call graphs and programs", "why_tests_cant": "all graphs, recursion depth unbounded", "anchors": ["src/cfg_methods/cost_computation.py"]}
{"id": "C39", "title": "Opcode table is consistent", "statement": "Distinct mnemonics have distinct opcode bytes, rendered as two hex digits, and stack arities equal those of the EVM; DUP and SWAP exist exactly for 1 to 16.", "quantifier": "all entries of the opcode table", "why_tests_cant": "a per-entry test would restate the table; uniqueness is a property of all pairs", "anchors": ["src/parser/opcodes.py", "src/parser/utils_parser.py:process_opcode"]}
{"id": "C40", "title": "Algebraic simplification rules are valid on 256-bit words", "statement": "Each rewriting of an operation to one of its arguments or to a constant preserves the 256-bit value for all arguments that match the rule.", "quantifier": "all 256-bit words", "why_tests_cant": "2^512 argument pairs", "anchors": ["src/cfg_methods/rule_simplification.py:apply_transform"]}
{"id": "C41", "title": "Accepted schedules refine the block", "statement": "If the block validator accepts a schedule, then running it on a stack machine with memory, storage and logs ends with exactly the values and the state that running the block's instructions in program order on named variables yields, provided the dependence list orders (directly or through a chain) every pair of instructions, one of them an effect, that influence each other; reads may be repeated or dropped.", "quantifier": "all specifications in SSA form, id sequences, world types, interpretations, initial values and worlds", "why_tests_cant": "ranges over all interpretations of opcodes, all states and all interleavings of reads and effects", "anchors": ["src/analysis/greedy_validation.py:check_execution_from_ids", "src/analysis/symbolic_execution.py:execute_instr_id", "src/parser/cfg_block.py:build_spec"]}
{"id": "C42", "title": "The order of dependent instructions survives simplification and removal", "statement": "If the dependence analysis orders two instructions of a block and both are kept in the specification, then the dependence list of the specification still orders them (directly or through a chain).", "quantifier": "all blocks, all sets of removed instructions", "why_tests_cant": "depends on the shape of the whole dependence graph and on which instructions are unused", "anchors": ["src/analysis/instruction_dependencies.py:simplify_dependences", "src/parser/utils_parser.py:delete_unsued_instructions_from_deps", "src/parser/cfg_block.py:build_spec"]}
{"id": "C43", "title": "Layouts of program exits keep what is live", "statement": "The layout computed for a block that leaves the program always exists, starts with the required elements, contains every live variable, removes only elements dead on entry from the input stack, and the elements left for the final instruction to consume are its last arguments and dead afterwards.", "quantifier": "all input stacks, live sets, required elements and arguments of the final instruction", "why_tests_cant": "all stack sizes, in particular around the reachable depth 16", "anchors": ["src/liveness/stack_layout_methods.py:propagate_output_stack", "src/liveness/stack_layout_methods.py:remove_until_accessible"]}
{"id": "C44", "title": "Forgetting dead stack elements is safe", "statement": "Forgetting values removes only a bottom part of the stack consisting of dead variables, and the deepest remaining element is live.", "quantifier": "all stacks and live sets", "why_tests_cant": "all sizes", "anchors": ["src/liveness/stack_layout_methods.py:forget_values"]}
{"id": "C45", "title": "Raising the memory guard changes only the guard", "statement": "When spill slots are reserved, the only instruction of the code that changes is the one that pushes the memory guard, and it then pushes the first address after the reserved slots.", "quantifier": "all schedules and new guard values", "why_tests_cant": "all programs, in particular those where another constant coincides with the guard", "anchors": ["src/reparation/repair_unreachable.py:set_first_constant"]}
{"id": "C46", "title": "A spilled value is stored once, in a block that dominates its loads", "statement": "When the repair phase decides where to store the values that are loaded from memory, every variable with a pending load is either reported as not storable, and then no store is introduced, or it is stored exactly once, in a block that dominates every block with a pending load of it, in which it can be reached on the stack and which is in the loop of its definition. Variables without loads are not stored.", "quantifier": "all dominance trees, load counts, reachability and loop information", "why_tests_cant": "the decision depends on the counts over the whole tree, for every tree", "anchors": ["src/reparation/insert_placeholders.py:store_stack_elements_tree", "src/reparation/insert_placeholders.py:store_stack_elements_block", "src/reparation/insert_placeholders.py:substract_zero"]}
{"id": "C47", "title": "The validator accepts exactly the right schedules", "statement": "The check of a schedule against its specification succeeds if and only if the schedule runs on the symbolic stack without underflow or wrong operands and ends in the target stack (or in a stack starting with it when junk is allowed), every dependence has both of its instructions scheduled with all occurrences of the first before all occurrences of the second, and every storage instruction occurs exactly once. So no correct schedule is rejected either.", "quantifier": "all specifications with distinct instruction ids and binary commutative operations, all schedules without SWAP0", "why_tests_cant": "all schedules and specifications", "anchors": ["src/analysis/symbolic_execution.py:check_execution_from_ids", "src/analysis/greedy_validation.py"]}
{"id": "C48", "title": "Joins start from the stack of a predecessor", "statement": "The stack from which the layout of a join is computed has the shape of the stack of the chosen predecessor: an element live at the join stays in its position, any other element stays or is replaced by a phi function that takes exactly this element from that predecessor, and two positions are never given to the same phi function.", "quantifier": "all stacks, live sets and phi functions", "why_tests_cant": "all sizes", "anchors": ["src/liveness/stack_layout_methods.py:generate_combined_block_from_original"]}
{"id": "C49", "title": "The specification built for a block stands for the block", "statement": "When a block is turned into a specification for the scheduler (constants become push instructions that are shared, repeated pushes are merged through aliases, unused instructions are dropped), every schedule that the validator accepts for it, run on a stack machine from the values of the block's initial stack, ends with the values that running the instructions of the block themselves in order gives to the names of the final stack, with zero in the gaps, and with the same memory, storage and logs.", "quantifier": "all blocks in single assignment form with proper names, all assignments, initial and final stacks, all interpretations of the operations in which only effects change the world, all dependences that cover the conflicts of the block, all accepted schedules", "why_tests_cant": "all blocks, interpretations and schedules", "anchors": ["src/parser/cfg_block.py:_build_spec_for_sequence", "src/parser/cfg_instruction.py:build_spec", "src/parser/utils_parser.py:replace_aliasing_spec"]}
{"id": "C50", "title": "The specification of a block can be met", "statement": "The specification built for a block always has a schedule that the validator accepts: every operand of an instruction and every element of the target stack is in the source stack or produced by an instruction that has been kept, and the ids of the instructions are distinct. (Refuted for blocks that push the same thing twice: unused instructions are detected before aliases are resolved, and chains of aliases are followed for one step only.)", "quantifier": "all blocks, initial and final stacks, dependences that follow the order of the block", "why_tests_cant": "all blocks; the failure only shows up for blocks in which a pushed value is repeated and only some of the copies are used", "anchors": ["src/parser/cfg_block.py:_build_spec_for_sequence", "src/parser/utils_parser.py:detect_unused_instructions", "src/parser/utils_parser.py:replace_aliasing_spec"]}
{"id": "C51", "title": "Compiling a block, dependences included, preserves what it does to the EVM state", "statement": "Take a block of the control flow graph, build its specification together with the storage, memory, transient storage and gas dependences that are computed for it, and run any schedule that the validator accepts for this specification. The machine ends with the stack, memory, storage, transient storage, logs and environment in which executing the block's own instructions in order ends. (As it stands the code violates this: two logs, a call and a read of the return data size, a store and a load whose key is computed from the other key, a contract creation and a storage access, or two stores with an unused load between them may be exchanged.)", "quantifier": "every block in single assignment form, every initial stack, memory, storage and environment, every final stack, every accepted schedule, and every meaning of the operations that reads and writes no more than the EVM operation of that name", "why_tests_cant": "The wrong order only shows for particular addresses, keys and schedules; the analysis has to be right for all of them at once.", "anchors": ["src/parser/cfg_block.py: build_spec, _process_dependences", "src/analysis/instruction_dependencies.py: compute_memory_dependences, compute_storage_dependences", "src/parser/utils_parser.py: delete_unsued_instructions_from_deps", "src/analysis/greedy_validation.py: check_execution_from_ids"]}
{"id": "C52", "title": "Stack layouts of a whole component fit together along every edge", "statement": "After the layout generation of a component has finished, every reachable block has exactly one input and one output stack, and for every edge from B to S the stack that B leaves holds, at every position of the stack S starts from (padding names excepted), the value S expects there once the phi functions of S have been executed in parallel. If B is the only predecessor, S starts literally from the upper part of the stack that B leaves. On a well-formed component the generation ends with such a result, or fails at the assertion that a dominating predecessor keeps at least as many otherwise dead variables as the other one; no stack, block or level is missing. Proviso: no block precedes two different joins (as it stands the code gives inconsistent stacks or a KeyError there).", "quantifier": "every component (control flow graph with phi functions), every liveness and depth information, every dominance tree and loop forest, every edge, every value of the variables", "why_tests_cant": "The order in which blocks are visited and the stacks already fixed by joins depend on the whole graph; a mismatch shows only on the path through one particular edge.", "anchors": ["src/liveness/layout_generation.py: LayoutGeneration._construct_code_from_block, _construct_code_from_block_list, preserve_stack_dominant_path", "src/liveness/stack_layout_methods.py: unification_block_dict, unify_stacks_brothers, unify_stacks_dominant, forget_values"]}
{"id": "C53", "title": "A compiled program runs exactly as its control flow graphs do", "statement": "Let every component of a program (main code and functions) have stack layouts from the layout generation, specifications built from its blocks, and schedules that the validator accepts. Then the stack machine that runs the scheduled code of the blocks, with calls, returns and jumps realised by tags on the stack, and the control flow graphs with their phi functions, parameters and results go through the same blocks in the same order, with the same state of the EVM before every block, and end with the same operation on the same arguments. Conversely the machine has no other runs. Provisos: every component meets the provisos of C52; a block that calls a function with results is not directly before a join; names used for padding do not occur in the program; blocks meet the provisos of C51, and no block reads a variable that another block has stored in memory.", "quantifier": "every program (any number of functions, blocks, loops, recursion), every interpretation of the operations and the environment, every initial state, every number of steps, every choice of accepted schedules", "why_tests_cant": "The claim is about all executions of all programs; each stage may be right on its own and still disagree with the next one on one edge, on one call depth or on one order of arguments.", "anchors": ["src/liveness/layout_generation.py: LayoutGeneration", "src/parser/cfg_block.py: build_spec", "src/analysis/greedy_validation.py: check_execution_from_ids", "src/solution_generation/reconstruct_bytecode.py: asm_from_ids, generate_asm_split_blocks", "src/cfg_methods/jump_insertion.py: insert_jumps_tags_cfg", "src/cfg_methods/sub_block_generation.py: modify_block_list_split"]}
{"id": "C54", "title": "The emitted assembly runs as the program does", "statement": "Let a program be compiled as in C53 and its assembly be written down: the items of every block from its schedule, its tag, its last jump or operation, the blocks in the order of the traversal (a block that is fallen to directly behind the block that falls to it), the main code and then the functions. Then writing succeeds, and a machine that runs this flat list of items from the first one, with a program counter, jumps to tags, and no notion of blocks, ends exactly as the program does: with the same operation on the same arguments in the same state of the EVM; and as long as the program runs on, so does the machine, through the same EVM states. Conversely, if the machine ends, the program ends in the same way (or has no next step). Provisos: those of C53; the order of blocks meets the provisos of C33; the type of every block says how it ends, and a terminal block ends with one of STOP, RETURN, REVERT, INVALID, SELFDESTRUCT as its recognised last instruction; instructions have at most one literal argument, whose meaning does not depend on how it is written; DUP and SWAP reach at most 16; no variables are stored in memory; different tags have different values.", "quantifier": "every program, every interpretation of the operations, every initial stack and state, every execution of any length, every choice of accepted schedules", "why_tests_cant": "A missing JUMPDEST, a block emitted behind the wrong one, a tag that is used twice or an operand written in the wrong base shows only on the executions that pass there; the claim is about all executions of all programs.", "anchors": ["src/solution_generation/reconstruct_bytecode.py: traverse_cfg, traverse_cfg_block_list, locate_fallsto_block, generate_asm_split_blocks, asm_from_ids, id_to_asm_bytecode, asm_from_op_info, asm_for_split_instruction", "src/solution_generation/utils.py: to_hex_default"]}
{"id": "C55", "title": "The lists of exit blocks stay exact", "statement": "A component keeps two lists: the blocks that end the program or return (from which the liveness analysis starts) and the blocks that return (from which calls and inlining take the results). After adding a block with a new name, splitting a block, merging two blocks, combining all mergeable blocks and removing unreachable ones, the first list again contains exactly the blocks whose type is FunctionReturn, mainExit or terminal, the second exactly those whose type is FunctionReturn, each once.", "quantifier": "every block list, every sequence of these edits", "why_tests_cant": "A stale or missing entry shows only later, as a variable that is not live or a return without a tag, and only for particular sequences of edits.", "anchors": ["src/parser/cfg_block_list.py: add_block, remove_block, terminal_blocks, function_return_blocks", "src/cfg_methods/cfg_block_actions/split_block.py", "src/cfg_methods/cfg_block_actions/merge_blocks.py", "src/cfg_methods/sub_block_generation.py: combine_remove_blocks_block_list"]}
{"id": "C56", "title": "Inlining the only call of a function preserves the program", "statement": "Let a function be called in exactly one place of an object, outside of the function itself. Inlining this call succeeds, removes the function, and the object then has the same executions: it ends in the same world, gets stuck, or runs forever exactly as before, whatever the operations mean and in whatever world it starts. In particular the arguments reach the parameters in the right order, the results of one exit or of several exits reach the variables of the call, and nothing after the call is lost. Provisos: both graphs are coherent and in strict single assignment form and share no variables and no names of blocks; the names of the two halves are new; the block with the call is not its own successor; numbers of arguments and results fit; blocks that return end with functionReturn; the call does not use its own results.", "quantifier": "every object, every function with any graph and any number of exits (including none), every position of the call, every interpretation of the operations, every initial world, executions of any length", "why_tests_cant": "Renaming the results of the call by what the function returns is right only if no execution passes through a point where the two differ; the claim is about all executions, with other activations of the caller on the stack.", "anchors": ["src/cfg_methods/cfg_block_actions/inline_function.py: InlineFunction", "src/cfg_methods/cfg_block_actions/split_block.py: SplitBlock", "src/cfg_methods/variable_renaming.py: rename_block_list, rename_function"]}
{"id": "C57", "title": "The inlining pass preserves the program and removes the functions that are called once", "statement": "Inlining all functions of an object that are called once, callees before callers: the pass succeeds, the object has the same executions as before (same final worlds, stuck alike, non-terminating alike), exactly the functions with a single call are removed, and the object is again well-formed (coherent graphs in strict single assignment form, exact exit lists, phi functions first, calls that fit). In particular each call is found although the block in which it was has been split by earlier inlinings. Provisos: the object is well-formed: graphs as in C56, no variable or block name is shared between components, no name of a block is another one followed by the letters f and s, no block is its own successor, results of instructions other than phi functions come after their arguments in some order of the variables; no function has its only call in itself, and of two functions called once the callee is visited first. The order that the code computes (the condensation of the graph of calls in topological order, the members of a component in any order) is such an order unless a function called once contains a call, to which it leads back, of a function called once; on a program with such a cycle the pass can raise an exception.", "quantifier": "every well-formed object with any number of functions, calls and blocks, every order of visiting functions with callees first, every interpretation of the operations, every initial world, executions of any length", "why_tests_cant": "Several inlinings in the same block, in blocks of functions that are then inlined themselves, and with renamed results interact; the claim is about all programs and all their executions.", "anchors": ["src/cfg_methods/function_inlining.py: inline_functions, generate_function2information, inline_functions_cfg_object, _determine_idx, prune_cycles_topological_sort", "src/cfg_methods/cfg_block_actions/inline_function.py: InlineFunction"]}
{"id": "C58", "title": "Combining blocks preserves whole programs", "statement": "Merging, in all components of an object, the blocks that follow each other without branches or joins, and removing the blocks that are not reachable: no step fails, every function is still there with the same parameters, and the object has the same executions as before (same final worlds, stuck alike, non-terminating alike), calls from and into merged blocks included. Provisos: the graphs are well-formed, nothing leads to an entry, blocks with phi functions have two different predecessors, and no loop is a run of such blocks that branches back only at its end.", "quantifier": "every object with such graphs, any number of functions, blocks and runs of blocks, every list of names of split instructions, every interpretation of the operations, every initial world, executions of any length", "why_tests_cant": "Merged blocks get new names while other pairs still use the old ones, and activations on the call stack are in the middle of blocks that are merged; the claim is about all programs and all their executions.", "anchors": ["src/cfg_methods/sub_block_generation.py: combine_remove_blocks_cfg, combine_remove_blocks_block_list, combine_blocks_block_list, remove_blocks_block_list, _nodes_to_merge, _nodes_to_remove", "src/cfg_methods/cfg_block_actions/merge_blocks.py: MergeBlocks"]}
{"id": "C59", "title": "Renaming variables preserves whole programs", "statement": "Giving all variables of an object distinct names, component by component with one counter: the object has the same executions as before (same final worlds, stuck alike, non-terminating alike), calls included; each component is the old one with its variables replaced; the components are still well-formed, and no variable occurs in two components, so that the object meets the provisos of inlining. Provisos: every component is well-formed as in C57, every variable that is used is defined in its component, names of blocks are not shared and no name of a block is another one followed by the letters f and s, and calls fit; components may share variables.", "quantifier": "every such object with any number of functions, blocks and variables, every interpretation of the operations, every initial world, executions of any length", "why_tests_cant": "A collision of two new names, or of a new name with a constant, shows only for particular numbers of variables and components; the claim is about all programs and all their executions.", "anchors": ["src/cfg_methods/variable_renaming.py: rename_variables_cfg, rename_cfg, rename_function, rename_block_list"]}
{"id": "C60", "title": "Renaming, inlining and combining in a row preserve the program", "statement": "Preprocessing an object by renaming its variables, inlining the functions that are called once (callees first) and combining blocks: no step fails, the result has the same executions as the object that was given (same final worlds, stuck alike, non-terminating alike), and exactly the functions that are called once have disappeared. The provisos are about the given object only: those of C59, nothing leads to an entry, blocks with phi functions have two different predecessors, no loop is a run of blocks that branches back only at its end, and the order of C57 exists; all conditions of the later steps are shown to hold after the earlier ones.", "quantifier": "every such object with any number of functions, blocks, calls and variables, every order of visiting functions with callees first, every interpretation of the operations, every initial world, executions of any length", "why_tests_cant": "The conditions under which inlining and combining are right must hold of the result of the earlier steps, for all programs; inlined code could form loops without branches, or entries with predecessors.", "anchors": ["src/cfg_methods/preprocessing_methods.py: preprocess_cfg", "src/cfg_methods/variable_renaming.py: rename_variables_cfg", "src/cfg_methods/function_inlining.py: inline_functions", "src/cfg_methods/sub_block_generation.py: combine_remove_blocks_cfg"]}
{"id": "C61", "title": "Inserting jumps and tags and splitting at calls preserves the program", "statement": "Lowering an object (jump and tag instructions at the ends of blocks, a place to return to as first parameter of functions that return, blocks cut after every call, tags as arguments of calls): no step fails, and the program that the layout generation then works on, whose blocks end with at most one jump, call, return or ending operation, does what the object did before: it ends in the same way with the same arguments and the same world, gets stuck exactly if the object does, and runs forever exactly if the object does. A call is the last instruction of its block afterwards. Provisos: graphs are well-formed, no block is its own successor, the kind of a block says how it ends, returns and operations that end the execution are last in blocks without successors, a call is last in a block without successors exactly if the function never returns, the entry has no phi functions, no variable is a number or begins with out_, no name of a block is another one followed by the letters f and s, invalid is not used as an operation, and the operations give as many results as the instructions have.", "quantifier": "every such object with any number of functions, blocks and calls, every interpretation of the operations, every result of the analyses that the program carries along, every initial world, executions of any length", "why_tests_cant": "Blocks are cut repeatedly while tags, predecessors, entries and the start move to the halves; the claim is about all programs and all their executions, with activations in the middle of blocks that are cut.", "anchors": ["src/cfg_methods/jump_insertion.py: insert_jumps_tags_cfg, insert_jumps_tags_block_list, tag_from_tag_dict", "src/cfg_methods/sub_block_generation.py: split_blocks_cfg, modify_block_list_split", "src/cfg_methods/cfg_block_actions/split_block.py: SplitBlock", "src/parser/cfg_block.py: insert_jump_instruction, insert_jumpi_instruction"]}
{"id": "C62", "title": "Jumps and calls carry the tags of their targets", "statement": "After jumps and tags have been inserted and blocks cut at calls: every block that jumps ends with pushing and jumping to the tag of its target, a conditional one with its condition; every call pushes and gets as first argument the tag of the first block of the function that is called, and, exactly if that function returns, pushes and gets as last argument the tag of the block to go on with, which exists; no two blocks have the same tag, whatever cuts came in between.", "quantifier": "every object as in C61, every block of the result", "why_tests_cant": "A target can be cut, and its tag moved to the first half, before or after the jump to it is processed, in any order of blocks and functions and any number of times.", "anchors": ["src/cfg_methods/jump_insertion.py: insert_jumps_tags_cfg, insert_jumps_tags_block_list, tag_from_tag_dict", "src/cfg_methods/sub_block_generation.py: split_blocks_cfg, modify_block_list_split"]}
{"id": "C63", "title": "The front end preserves the program", "statement": "Running all steps from the parsed object to the program the layout generation works on (renaming variables apart, inlining functions that are called once, combining blocks, inserting jumps and tags, cutting blocks at calls) never fails; the functions that are called once are gone and all others stay; and the resulting program does what the parsed object does: it ends in the same way with the same arguments and the same world, gets stuck exactly if the object does, and runs forever exactly if the object does. Provisos: functions are inlined callees first; components are in strict single assignment form and well-formed, calls have the right numbers of arguments and results; all blocks can be reached, blocks without successors are not empty; the kind of a block says how it ends, no block is a half of a cut one; phi functions stand where several edges meet, have an argument for each predecessor, and the entry has no predecessors; there is no cycle of blocks that all have one successor and one predecessor; operations that end the execution are last in blocks without successors, a call is last in a block without successors exactly if the function never returns; invalid is not used as an operation; functions are not called like operations; and the operations give as many results as the instructions have. Components may share names of variables.", "quantifier": "every such object with any number of functions, blocks and calls, every interpretation of the operations, every result of the analyses, every initial world, executions of any length", "why_tests_cant": "Each step has preconditions that the steps before it must establish for every input: inlining leaves dead halves, empty blocks, stale predecessors and blocks of a special kind, which later steps must cope with. The claim is about all programs and all their executions.", "anchors": ["src/cfg_methods/preprocessing_methods.py: preprocess_cfg", "src/cfg_methods/variable_renaming.py: rename_variables_cfg", "src/cfg_methods/function_inlining.py: inline_functions", "src/cfg_methods/cfg_block_actions/merge_blocks.py: combine_remove_blocks_cfg", "src/cfg_methods/jump_insertion.py: insert_jumps_tags_cfg", "src/cfg_methods/sub_block_generation.py: split_blocks_cfg"]}
{"id": "C64", "title": "The assembly does what the parsed object does", "statement": "From the object the parser has built to the assembly that is written at the end. The front end (C63) never fails. If, for the program it results in, the checks of the later phases hold - layouts are found and the validator accepts every schedule, no block precedes two joins, the blocks can be placed, nothing is live where a function returns, schedules use depths up to 16 and store no variables - then the assembly is written, and a machine with a program counter that executes it from the first item on, with any stack and any world, ends with an operation exactly if the object does, with the same operation, arguments and world, and runs forever if the object does. Provisos beyond those of C63: the object does not get stuck; a block lists no entries or exactly its predecessors; blocks of the kind mainExit do not end with an ending operation or a call, terminal blocks do; ending operations and returns have no results and the right number of arguments; the operations can be written as assembly items; different tags stand for different values.", "quantifier": "every such object with any number of functions, blocks and calls, every interpretation of the operations, every result of the analyses and every scheduler for which the checks hold, every initial world and stack, executions of any length", "why_tests_cant": "The claim composes all phases: each must deliver what the next one relies on, for every program, and the result is about all executions, also those that do not end.", "anchors": ["src/execution/main_execution.py: analyze_single_cfg", "src/cfg_methods/preprocessing_methods.py: preprocess_cfg", "src/liveness/layout_generation.py: LayoutGeneration", "src/solution_generation/reconstruct_bytecode.py: traverse_cfg, traverse_cfg_block_list, asm_from_ids, asm_for_split_instruction"]}
{"id": "C65", "title": "Reading a document keeps the program", "statement": "Every control-flow graph document as solc writes it is read without an error, and the object that results does what the document says: whatever the operations mean and in whatever world it is started, it ends in the same worlds and gets stuck exactly if the document does (so arguments, parameters, results, returned values, phi functions, conditions and targets keep their places). Each list of blocks has the same blocks in the same order and starts with the first one; successors, kinds of exits, entries of phi functions, recorded exits and recorded returns are those of the document, and the recorded predecessors of a block are the other blocks that have it as a target; if no block has itself or another block twice as a target, predecessors and successors agree. Provisos: block names are unique, targets exist, exits are of the five kinds and have the targets, conditions and values they need, the entry of a function is its first block. (The results of an instruction with several results keep their order only if its name contains an underscore; the code swaps them otherwise.)", "quantifier": "every document with any number of functions, blocks and instructions, every meaning of the operations, every initial world, executions of any length", "why_tests_cant": "Arguments are listed backwards and everything else forwards, and both are reversed several times on the way; a test with symmetric operands, one result or one argument does not notice a wrong order, and the order of results depends on the spelling of a name.", "anchors": ["src/parser/parser.py: parse_instruction, parse_block, update_comes_from, parser_block_list, parse_function, parser_CFG_from_JSON", "src/parser/cfg_instruction.py: CFGInstruction.__init__", "src/parser/cfg_block.py: set_jump_info", "src/parser/cfg_block_list.py: add_block"]}
{"id": "C66", "title": "References to other objects are kept apart", "statement": "Within the code of an object or of a function, two references to data of objects (their sizes or offsets) are translated to the same number exactly if they name the same object, and a reference to a direct subobject is translated to its number. The translation changes neither the number of instructions nor any operation that is not a built-in function of Yul. Provisos: direct subobjects have distinct numbers, fewer than 2^64 numbers are in use, and names that are not those of direct subobjects do not have a dot as their second character. (Across functions different objects may get the same number.)", "quantifier": "every list of instructions of any length, every set of direct subobjects, every two references", "why_tests_cant": "Numbers are handed out on the way and remembered in a dictionary; collisions appear only for particular combinations of names and orders.", "anchors": ["src/parser/cfg_instruction.py: translate_datasize, translate_dataoffset, translate_built_in_function", "src/parser/cfg_block_list.py: translate_opcodes"]}
{"id": "C67", "title": "The assembly does what the document says", "statement": "From the document that solc has written to the assembly: the document is read; if the object meets the provisos of the property on the whole compiler, the front end succeeds, and if the checks of the later phases hold for the program that results, the assembly is written, and a machine with a program counter that executes it from the first item on, with any stack and any world, ends with an operation exactly if the document does, with the same operation, arguments and world, and runs forever if the document does.", "quantifier": "every such document, every interpretation of the operations, every result of the analyses and every scheduler for which the checks hold, every initial world and stack, executions of any length", "why_tests_cant": "The claim composes reading, renaming, inlining, combining, lowering, layout, scheduling and emission for every document and every execution.", "anchors": ["src/parser/parser.py: parser_CFG_from_JSON", "src/execution/main_execution.py: analyze_single_cfg", "src/cfg_methods/preprocessing_methods.py: preprocess_cfg", "src/solution_generation/reconstruct_bytecode.py: traverse_cfg, asm_from_ids"]}
{"id": "C68", "title": "Keeping variables in memory does not change what the assembly does", "statement": "Variables that are out of reach on the stack are stored in cells of memory and loaded again, and arguments of phi functions are copied between cells at the end of blocks. The assembly with these loads and stores, executed by a machine with a program counter from any stack and with any content of the cells, ends with the same operation on the same arguments as the program whose variables are just variables, in a state that is the same outside the cells; it runs as long as the program does, and it ends only if the program ends or gets stuck. Provisos: the schedules have been accepted; every variable that is loaded is, by the stores on all ways to the load, in the cell it is loaded from, no call in between writes that cell, and cells do not overlap; the program does not touch the cells itself, and stored values have 256 bits.", "quantifier": "every program with calls, loops and phi functions, every schedule that is accepted, every choice of cells that is right, every initial state and stack, executions of any length", "why_tests_cant": "Whether a cell still holds the variable depends on the path and on the pending calls; a wrong place shows only on particular paths and values.", "anchors": ["src/reparation/tree_scan.py: TreeScan, _emit_vget, _emit_vset, _emit_dup_vset, _emit_copies", "src/reparation/repair_unreachable.py: repair_cfg_objects", "src/solution_generation/reconstruct_bytecode.py: traverse_cfg, asm_from_ids"]}
{"id": "C69", "title": "The assembly of a contract with subobjects does, at every place, what the object at this place says", "statement": "A document has an object with subobjects, these have subobjects in turn, to any depth. The output has code for the outermost object and, under the numbers of the subobjects in .data, the code of the subobjects, in the same nesting. For every object in the document, the code at the corresponding place, executed by a machine with a program counter, ends with the same operation, arguments and state as the document of that object, and runs forever if that does; and there is no other code. What else is in the contract has no influence on the code of an object. Provisos: those of C67 for every object, and no two objects, at any places, have the same name.", "quantifier": "every document with subobjects of any number and depth whose names are distinct, every place in it, all analyses, layouts and schedules that pass the checks, every initial state and stack, executions of any length", "why_tests_cant": "The passes share dictionaries between all objects of a contract; whether one object disturbs another depends on the whole tree of objects, of which there is no bound on depth and width.", "anchors": ["src/parser/parser.py: parser_CFG_from_JSON", "src/cfg_methods/preprocessing_methods.py: preprocess_cfg", "src/cfg_methods/function_inlining.py: inline_functions, generate_function2information", "src/cfg_methods/jump_insertion.py: insert_jumps_tags_cfg", "src/cfg_methods/sub_block_generation.py: split_blocks_cfg", "src/solution_generation/reconstruct_bytecode.py: recursive_asm_from_cfg_object, recursive_asm_from_cfg, asm_from_cfg"]}
{"id": "C70", "title": "References to subobjects find the code of the subobject", "statement": "In the code of an object, dataoffset(\"X\") and datasize(\"X\"), where X is one of its subobjects, become items whose value, read as a hexadecimal number, is the key (also read as a hexadecimal number) under which .data of this object holds the code of X; no two entries of .data have the same key. This is independent of the references that were translated before.", "quantifier": "every object with any number of subobjects, every reference to one of them, every state of the translation", "why_tests_cant": "Numbers are given in one phase of the program and keys in another one, in different notations; that they agree for every number of subobjects is not seen on samples with one or two.", "anchors": ["src/parser/cfg_instruction.py: translate_datasize, translate_dataoffset", "src/parser/cfg.py: add_object, get_objectCFG2idx", "src/solution_generation/reconstruct_bytecode.py: recursive_asm_from_cfg_object"]}
{"id": "C71", "title": "Reordering the stack at the end of a schedule produces the wanted stack", "statement": "The greedy scheduler ends by bringing the stack into its final order with POP, SWAPk and registers (VSET, VGET), given the final stack, a stack, the list of positions taken to be solved, and the number of positions a SWAP reaches. Whenever this ends without an exception, the instructions can be executed: every POP and VSET finds a value, every SWAP is within reach and every VGET reads a register that was set before; and they turn the given stack into the final stack, for all values of the variables, whatever the list of solved positions says and whatever was in the registers before.", "quantifier": "every stack and final stack of any length, every list of solved positions, every reach, all values of the variables, any number of rounds", "why_tests_cant": "The loop has a dozen branches that act on positions counted from both ends of two lists of different lengths; tests see a few of the interleavings.", "anchors": ["src/greedy/greedy_previous_param.py: compute_permut_and_clean, get_register, unsolved"]}
{"id": "C72", "title": "Dropping instructions without effect preserves what a schedule does", "statement": "The last step of the greedy scheduler drops pairs of SWAP1 and a SWAP1 after a DUP1, also if these come together only because others were dropped. If the schedule can be executed, so can the shorter one, and with the same result, for every interpretation of the instructions; if the validator accepts the schedule, it accepts the shorter one; the result is not longer, and no such pair is left in it.", "quantifier": "every sequence of instructions of any length, every interpretation of the instructions of a block, every initial stack, every specification", "why_tests_cant": "Which instructions become neighbours depends on what was dropped before, to any depth.", "anchors": ["src/greedy/greedy_previous_param.py: remove_useless", "src/analysis/greedy_validation.py: check_execution_from_ids"]}
{"id": "C73", "title": "Reordering the stack at the end of a schedule always succeeds", "statement": "If every value of the final stack is on the stack exactly as often as the final stack needs it, the positions taken to be solved are right, and a SWAP reaches at least one position below the top, then the last step of the greedy scheduler that brings the stack into its final order ends after finitely many rounds without a failed assertion or another exception, however long both stacks are, however far apart positions are compared to the reach, and whatever values that are not needed are on the stack in between; its instructions produce the final stack. (With surplus copies of needed values it may fail: finding 22.)", "quantifier": "every stack and final stack of any length with equal numbers of needed values, every reach from 1 on, every list of right positions", "why_tests_cant": "Values go into registers and come back, marks are set and removed again; whether the loop can run forever or reach a failing assertion depends on histories of any length.", "anchors": ["src/greedy/greedy_previous_param.py: compute_permut_and_clean, add_solved, get_register, unsolved"]}
{"id": "C74", "title": "Every schedule of the greedy scheduler produces the output stack of its block", "statement": "Whenever the greedy scheduler returns a schedule for a block, executing it on the input stack of the block gives exactly the output stack, or, if values are allowed below it, the output stack on top of others; every SWAP and DUP in it is within the given reach. This is so whatever the order of writes and the numbers of uses it starts from and whatever its heuristics answer on the way, and even though it reverses the arguments of commutative instructions in place and tries twice on the same objects. So the check every schedule goes through afterwards can only fail because of the order of two dependent instructions or because an instruction with effects does not occur exactly once. (Blocks: ids unique and not those of stack operations, commutative instructions have two arguments, no value is named like a write or contains SWAP or DUP.)", "quantifier": "every block with any number of instructions and any stacks, every plan, all answers of the heuristics, every reach, with and without values below the output stack", "why_tests_cant": "The scheduler interleaves popping, cleaning, swapping, duplicating, recomputing and reloading values in an order that depends on heuristics; a wrong position appears only in particular interleavings on stacks of particular depths.", "anchors": ["src/greedy/greedy_previous_param.py: greedy_from_json, SMSgreedy.precompute, compute, compute_one_with_stack, compute_pre_list, compute_memory_op, compute_regular_op, choose_element, clean_stack", "src/analysis/greedy_validation.py: check_execution_from_ids"]}
{"id": "C75", "title": "The assembly that keeps variables in memory does what the document says", "statement": "From the document that solc has written, or the object it is parsed to, to the assembly, when schedules store variables in cells of memory and load them again: the front end succeeds; if the checks of the later phases hold for the program that results, and every variable that is loaded is in the cell it is loaded from on all ways to the load (cells do not overlap, no call in between writes the cell), then the assembly is written. Started with any stack in a state that agrees with the one of the document outside the cells, a machine with a program counter ends with an operation exactly if the document does, with the same operation and arguments and in a state that agrees outside the cells, and runs forever if the document does. Provisos: as for the property on whole documents without stored variables; the document does not get stuck; the program itself does not touch the cells, and stored values have 256 bits.", "quantifier": "all documents, analyses, schedules, places of variables, initial states, contents of the cells and stacks that meet the provisos", "why_tests_cant": "A stored variable has to survive on all ways through the graph and over all calls; which ones are stored depends on how deep stacks become.", "anchors": ["src/execution/main_execution.py", "src/reparation/repair_unreachable.py: repair_cfg_objects", "src/reparation/tree_scan.py: TreeScan", "src/solution_generation/reconstruct_bytecode.py"]}
{"id": "C76", "title": "Exactly the phi functions that are out of reach are kept in memory, with a copy on every incoming edge", "statement": "A variable counts as out of reach in a block exactly if a block on the dominator path declares it, it is live from there on and no block from there to this one has it within reach. When the values out of reach are repaired, the phi functions kept in memory are exactly the ones to repair that are out of reach in their own block and, in turn, the arguments that are out of reach in the block they come from, around loops too. For these and no others every argument is copied at the end of the block it comes from, with a load counted exactly if it is not reachable there, and variables share a web exactly if a chain of these phi functions connects them. The repair always ends, and it raises no exception if every variable computed by an instruction is within reach at some point of its own block. (Blocks have different names, each variable is the result of at most one phi function, entries of blocks exist.)", "quantifier": "all control flow graphs with any loops, all dominator trees, all results of the reachability analysis, all sets of values to repair in any order of traversal", "why_tests_cant": "Needs cyclic chains of phi functions whose values lie deeper than the stack can be reached; termination depends on the order of the worklist.", "anchors": ["src/reparation/insert_placeholders.py: repair_unreachable, compute_phi_def2block, fix_inaccessible_phi_values", "src/reparation/reachability.py: block_unreachability, construct_reachability_block, construct_reachability", "src/greedy/greedy_info.py: add_virtual_copy"]}
{"id": "C77", "title": "A value kept in memory is never given up if it is within reach in the block that computes it", "statement": "Whatever the loops of the graph, a variable may be stored in the block that declares it (a variable that is on the stack at the start, in the first block). So if all loads of it are dominated by that block and it is within reach at some point of the block, the repair stores it, exactly once, in a block that dominates all loads. The loops are those of a forest in which every block hangs below the header of the first loop, from the smallest on, that contains it; for a header with several edges back only the largest loop counts. The only exception is a block that forms a loop by itself and is in no other loop, for which an assertion fails.", "quantifier": "all finite control flow graphs, reducible or not, all dominance trees, load counts, reachability information and sets of declared variables in single assignment form", "why_tests_cant": "Whether a variable is lost depends on the nesting of all loops and on where in the dominance tree its last load is found.", "anchors": ["src/graphs/cfg.py: compute_loop_nesting_forest_graph", "src/reparation/insert_placeholders.py: variable2block_header, entry_loop, within_loop, store_stack_elements_tree, store_stack_elements_block"]}
{"id": "C78", "title": "The memory cells reserved for values out of reach always suffice", "statement": "The repair reserves a number of memory cells before it assigns them: the variables with loads to repair, the loads of values stored in their own block, and the variables connected by phi functions kept in memory. After all stores are inserted, which never fails, there are at most as many stores as reserved cells. Every value that is stored gets one of these cells, and one of the first ones, as many as there are stores, whichever cells have been released before; so writing the code never asks for a cell that does not exist. If every value is stored before it is read, the assignment ends without an exception. The schedules of the greedy scheduler store no more values of their own than the loads of them that are counted.", "quantifier": "all dominance trees, schedules of the scheduler, reachability information, sets of phi functions to repair and orders in which sets are traversed", "why_tests_cant": "The bound compares a number computed at the beginning with what three later passes do on the whole tree.", "anchors": ["src/reparation/insert_placeholders.py: repair_unreachable, store_stack_elements_tree, store_stack_elements_block", "src/reparation/tree_scan.py: TreeScan._assign_color, _biased_pick_color, _assign_colours_to_constants", "src/reparation/colour_assignment.py: ColourAssignment", "src/greedy/greedy_info.py: GreedyInfo"]}
{"id": "C79", "title": "Every schedule performs the planned writes, exactly once each and in the planned order", "statement": "Whenever the greedy scheduler returns a schedule for a block, every store, call and log of its plan occurs in the schedule. Those without a result (stores, copies, logs) occur exactly as often as in the plan and in the order of the plan, and no other instruction without a result is executed. When the scheduler tries twice (values may remain below the output stack) the plan is the one of the try whose schedule is returned.", "quantifier": "all blocks, all plans whose counted values are not named like a write, all answers of the heuristics, all limits of reach, both tries", "why_tests_cant": "Writes are emitted from several places of the scheduler (alone, prepared together with their operands, merged with a following write), depending on the heuristics, and the second try is not checked against the dependencies by the code.", "anchors": ["src/greedy/greedy_previous_param.py: SMSgreedy.greedy, SMSgreedy.target, SMSgreedy.compute_with_stack, SMSgreedy.compute_one_with_stack, SMSgreedy.solve_permutation"]}
{"id": "C80", "title": "Every write of a block is performed exactly once and after the writes it depends on", "statement": "For every block whose dependencies have no cycle, the planning step of the greedy scheduler ends without a failed assertion. In the plan every store, copy, log and call of the block occurs exactly once, and each after all writes it depends on (memory, storage and transient storage together). Hence in every schedule that is returned each writing instruction without a result is executed exactly once, and any two dependent ones in the order of their dependency, in the first try and in the second one, whose dependencies the code does not check. (Not so for loads: a valid block may get no schedule at all, because the plan drops a load that has to be executed before a store, and the check at the end rejects the schedule.)", "quantifier": "all blocks, all sets of dependencies, all answers of the heuristics about which value needs which, all limits of reach, both tries", "why_tests_cant": "The order is obtained by joining levels of the dependency graph, with special treatment of levels without stores, and several later passes insert and remove values; a lost or swapped store shows only for particular shapes of the graph.", "anchors": ["src/greedy/greedy_previous_param.py: get_min_deps_map, get_max_pos_noSTORE, join_positions, sort_with_deps, remove_nostores_and_rename, needed_nostores, add_needed_nostores_in_stack, SMSgreedy.target, SMSgreedy.check_dependencies, SMSgreedy.greedy"]}
{"id": "C81", "title": "Giving variables to constants keeps the meaning of the program, and the shipped pass changes nothing", "statement": "The last preprocessing pass replaces constant arguments by variables that are assigned in a dominating block. Whatever rule picks the constants, it succeeds on every block list whose phi functions have an entry per argument, and the resulting program ends in the same states (world and values of all variables of the program), gets stuck and runs forever exactly as before, provided that no constant is given its variable in a block whose own phi functions use it. The new names are c0, c1, ... without gaps or repetitions, each is recorded with its constant and assigned by a push in a block that needs the constant. With the rule that is shipped the pass changes nothing at all. (With the formula in the comment of the shipped rule the proviso can fail, and then a phi function reads a variable before it is assigned.)", "quantifier": "all block lists, all dominance trees, all rules, all orders in which sets are gone through, all meanings of operations, all initial states and all executions of any length", "why_tests_cant": "A variable may be assigned in one block and read in any block below it in the dominance tree; that it holds the constant there depends on all paths through the graph, including loops.", "anchors": ["src/cfg_methods/minimizing_constants_insertion.py: insert_variables_for_constants_propagated, insert_variables_for_constants_block_list, insert_constants_block_list, decide_if_propagated, insert_constants_block_dominant_preorder, insert_constants_block", "src/parser/cfg_block.py: CFGBlock.insert_instruction, CFGBlock.phi_instructions"]}
{"id": "C82", "title": "Only real instructions are handed to the assembler", "statement": "The scheduler marks accesses to values it keeps outside the stack by placeholder ids. Whatever the program (objects, nested objects, functions) and its schedules, when repair and assembly preparation end without exception, every instruction id handed to the assembler is an instruction of its block, a POP, SWAP, DUP, or one of the PUSH/MLOAD/MSTORE that access the memory of the repair: no placeholder is left, also in block lists that are not repaired, whose schedules contain no placeholder at all. In repaired blocks all other instructions of the schedule are kept in order. The memory cells used by the block lists of one object have no byte in common and lie between the program's original memory constant and the one that replaces it.", "quantifier": "all programs, all schedules of the scheduler, all orders and choices of the repair, all numbers of objects, functions and blocks", "why_tests_cant": "A placeholder that is left is printed as an opcode name and is noticed only when that path of that contract is assembled; whether one is left depends on the combination of per-block flags, counts over the whole list, and the choices of the scheduler.", "anchors": ["src/execution/main_execution.py: analyze_single_cfg", "src/greedy/ids_from_spec.py: cfg_block_list_spec_ids, cfg_object_spec_ids, recursive_cfg_spec_ids", "src/greedy/greedy_info.py: GreedyInfo._initial_get_count", "src/reparation/repair_unreachable.py: repair_cfg, repair_cfg_objects, repair_unreachable_blocklist, set_first_constant", "src/reparation/tree_scan.py: TreeScan._emit_valid_bytecode"]}
{"id": "C83", "title": "Dominance: levels and paths describe exactly which blocks must be passed", "statement": "The layouts of a component are built along its dominance tree. For every control-flow graph with a given start, a path of the tree leads from block a to a reached block b exactly if every path of the graph from the start to b passes through a; the path begins with a, ends with b, and each of its steps goes from an immediate dominator to the block it dominates. Exactly the reached blocks have a level, and a block that strictly dominates another has a smaller level.", "quantifier": "all finite graphs, all starts, all pairs of blocks, all paths of any length", "why_tests_cant": "Dominance quantifies over all paths of the graph, of which there are infinitely many as soon as there is a loop; a wrong dominator shows only for the path that avoids it.", "anchors": ["src/graphs/algorithms.py: compute_dominance_tree", "src/liveness/stack_layout_methods.py: compute_block_level", "src/liveness/layout_generation.py: LayoutGeneration._construct_code_from_block, LayoutGeneration.__init__"]}
{"id": "C84", "title": "The depth recorded for a variable is the distance of a real use", "statement": "To order the variables of a layout the compiler records for each block and variable how far away its next use is. Whatever the order in which the blocks are visited: the computation raises no exception exactly if all visited blocks have been analysed; it gives a result for exactly these blocks; a variable used in the block has depth 0 and the position of its last use there; every other recorded depth d (other than the maximum given to variables that are merely live at the end) is that of an instruction in a block d edges away that has the variable at the recorded argument position; and every variable that is live at the end of a block has a depth there. The depth in a block exceeds that in a successor visited before it by at most the number of successors of the block. (With two successors it can therefore be one more than the distance of the nearest use: the depths are compared before the edge is added.)", "quantifier": "all liveness results, all graphs (with loops), all visiting orders, all blocks and variables", "why_tests_cant": "Depths are merged over all successors and pass through loops in an order chosen by a topological sort of the dominance tree; a test sees one graph and one order.", "anchors": ["src/liveness/stack_layout_methods.py: compute_variable_depth"]}
{"id": "C85", "title": "The layout generation can start exactly if every reachable block leads to an exit, and its analyses are right", "statement": "Before layouts are built for a component, its liveness, dominance tree, levels, depths and loops are computed. On every well-formed component whose liveness analysis ends, this raises no exception exactly if every block the first block leads to leads to one of the terminal blocks. If it succeeds: a variable recorded as live at the end of a block is used on some path before it is assigned again (and one recorded at its beginning too, unless it is the target of a phi function there); nothing is live at the end of a block without successors; dominance paths and levels are those of the component's graph; recorded depths are those of uses that many edges away; every cycle has a block that is recorded as being in a loop, and every block so recorded leads to an edge that closes a cycle. The components that the front end produces from every well-formed source are well formed in this sense, and if no block precedes two joins, the construction of layouts ends with a result unless one particular assertion fails. (So a contract with an endless loop that cannot be left, like for {} {}, is not compiled: KeyError.)", "quantifier": "all well-formed source objects, all components, all orders of dictionaries and topological sorts, all paths", "why_tests_cant": "Which blocks have been analysed depends on reachability from and to the ends of the component over all paths; the exception needs a loop that no path leaves, and the orders used by the libraries differ between runs.", "anchors": ["src/liveness/layout_generation.py: LayoutGeneration.__init__", "src/liveness/liveness_analysis.py: construct_analysis_info_from_cfgblocklist, liveness_analysis_from_vertices", "src/analysis/abstract_state.py: digraph_from_block_info", "src/liveness/stack_layout_methods.py: compute_variable_depth, compute_block_level", "src/graphs/algorithms.py: compute_dominance_tree, compute_loop_nesting_forest_graph"]}
{"id": "C86", "title": "If the compiler writes an assembly, the assembly does what the source does: it checks its own work", "statement": "For every well-formed source object (or document that solc writes), all orders in which analyses visit blocks, and all schedules that the search for instruction sequences may return, right or wrong: if the compiler raises no exception and writes an assembly, then from every initial state the assembly ends with the same operation, arguments and state as the source, or runs forever if the source does. Layouts and schedules need not be trusted, since every block is validated against its specification before the assembly is written. What the compiler relies on without checking it is listed and assumed: no block precedes two joins, blocks can be placed one after the other, equal names on a stack are told apart by the substitution of duplicates, the dependence analyses see all dependences, ids are those of instructions and of DUP and SWAP up to depth 16 (with the ids of the compiler's own scheduler this is proved: C89), and terminal blocks with empty schedules are empty. With the compiler's own scheduler the same holds when variables are stored in memory and loaded again, up to the contents of the cells, if moreover every load and store that the reparation adds is right where it is written and the program keeps away from the cells.", "quantifier": "all well-formed objects and documents, all visiting orders, all schedules, all initial states and stacks, executions of any length", "why_tests_cant": "The schedules come from heuristics and timeouts and differ from run to run; a test runs one schedule of one program, while the claim is that no wrong schedule whatsoever gets through the validation.", "anchors": ["src/execution/main_execution.py: analyze_single_cfg", "src/greedy/ids_from_spec.py: cfg_block_spec_ids, cfg_block_list_spec_ids", "src/liveness/layout_generation.py: LayoutGeneration.build_layout", "src/solution_generation/reconstruct_bytecode.py: traverse_cfg, traverse_cfg_block_list", "src/analysis/greedy_validation.py: check_execution_from_ids"]}
{"id": "C87", "title": "Layouts contain only names of the component, and only for blocks that can be reached", "statement": "Every name on the stack a block starts from or ends with, in the layouts of a component, is a parameter, a variable that is live somewhere, a result of the call that ends a block, a result or an argument of a phi function, or one of the names made up for positions that nobody reads; after the renaming of duplicates it may also be one of the names a0, a1, ... Layouts are only built for blocks that can be reached from the first block.", "quantifier": "all components, whatever the analyses say; all runs of the construction", "why_tests_cant": "Stacks are combined along all edges, joins and loops of a component, in an order given by a heap; a test sees a few of them.", "anchors": ["src/liveness/layout_generation.py: LayoutGeneration._construct_code_from_block_list, LayoutGeneration._construct_code_from_block", "src/liveness/stack_layout_methods.py: output_stack_layout, propagate_output_stack, unify_stacks_brothers, unify_stacks_dominant", "src/liveness/layout_generation.py: substitute_duplicates"]}
{"id": "C88", "title": "Nothing is expected on the stack that has not been computed", "statement": "If the validator has accepted the schedules of a component, then every variable on the stack with which a block starts has been assigned on every path from the start of the component to the block, as a parameter, by a phi function, by an instruction or as the result of a call. In particular a variable that only one block assigns is not on the stack when the block starts, so that no value is overwritten under the same name, and tags, which are pushed where they are used, are never on the stack between blocks. The same holds when variables are loaded from memory, and for the variables that are in a cell of memory when a block starts, if the loads and stores are right.", "quantifier": "all components with joins in the supported form, all layouts that are generated for them, all accepted schedules, all paths of any length", "why_tests_cant": "A variable that is expected on the stack but was computed only on some of the paths shows up as a wrong value on the other paths only; there are unboundedly many paths and layouts, and a test follows a few.", "anchors": ["src/liveness/layout_generation.py: LayoutGeneration.build_layout, _construct_code_from_block", "src/analysis/greedy_validation.py: check_execution_from_ids", "src/parser/cfg_block.py: _build_spec_for_sequence, build_spec", "src/cfg_methods/jump_insertion.py: insert_jumps_tags_cfg"]}
{"id": "C89", "title": "The scheduler emits only instructions of the specification and stack operations within reach", "statement": "Whatever specification the scheduler is given - well-formed or not - and whatever its heuristics answer, if it returns a schedule, then every id in it is POP, a SWAP or a DUP whose depth is between 1 and the maximal depth, the load or the store of a value, or the id of an instruction of the specification. With maximal depth 16 and a specification built from a block, no id of a schedule without loads and stores can be misread by the validator or be written as an operation that does not exist.", "quantifier": "all specifications, all answers of the heuristics, all plans, all maximal depths, both tries", "why_tests_cant": "The scheduler chooses among many ways to emit instructions depending on the state of the stack; that no combination of choices emits anything else concerns all its executions.", "anchors": ["src/greedy/greedy_previous_param.py: greedy_from_json, greedy_standalone, check_dup_swap", "src/greedy/ids_from_spec.py: cfg_block_spec_ids"]}
{"id": "C90", "title": "The contract that is asked for is the one that is compiled", "statement": "If solc prints the control flow graphs of several contracts, what it prints is taken apart at exactly the headers of the contracts. Without a contract being asked for, every contract with a graph is compiled from its own graph, under the name of its file and its own name. If a contract is asked for, its graph is compiled, and no other.", "quantifier": "all outputs of solc: any number of files and contracts, in any order, with any names and graphs on one line", "why_tests_cant": "Whether the right contract is found depends on the names and the order of all other contracts and on the text of the graphs; tests use a few files in which the names are not part of each other.", "anchors": ["src/execution/sol_compilation.py: process_sol_output, process_contract_output, filter_information_from_contract"]}
{"id": "C91", "title": "Running solc leaves the working directory as it was, for every command by which solc can be run", "statement": "Compiling a file runs solc in the folder of the file, with the command as seen from the directory in which grey is run, returns what is made of the output, and leaves the working directory and the command as they were, so that several compilations do not influence each other. This holds for every command by which solc can be run, in particular for the default one.", "quantifier": "all commands, all directories, all files, all outputs of solc, any number of compilations", "why_tests_cant": "It depends on the directory, on whether the command is a path or is looked up, and on whether solc succeeds, for any sequence of compilations; the test machine has one installation of solc.", "anchors": ["src/execution/sol_compilation.py: SolidityCompilation._change_path_for_compilation, _restore_path_for_compilation, compile_single_sol_file, compile_json_input"]}
{"id": "C92", "title": "The importer gets exactly the assembly of a contract and the settings of the user", "statement": "For each contract a file is written for the importer of solc which has exactly the assembly of this contract, and the settings of the user, except the compilation target (not supported), the metadata settings and the selection of the output, which are fixed; without settings, the optimizer with 200 runs and the new code generator are selected. The settings are the same for each contract, whichever were processed before. For the first run of solc only the metadata settings and the selection of the output are replaced.", "quantifier": "all settings, all numbers of contracts, all assemblies", "why_tests_cant": "All contracts share one settings object that is changed for each of them; that no change for one contract shows in the file of a later one concerns all settings and sequences of contracts.", "anchors": ["src/solution_generation/reconstruct_bytecode.py: build_standard_json_output, build_standard_json_settings, store_asm_standard_json_output", "src/execution/sol_compilation.py: SolidityCompilation.compile_json_input", "src/execution/main_execution.py: main"]}
{"id": "C93", "title": "Every contract of the input has its own assembly and bytecode in the output", "statement": "Every contract of a standard-JSON input for which solc returns a graph is compiled from its own graph. In the combined output every compiled contract has the assembly made of its graph, and in the table of contracts the bytecode which the importer makes of that assembly, in order; none is left out, overwritten or exchanged. This holds for both kinds of output (bytecode and opcodes).", "quantifier": "all answers of solc with any files and contracts, all compilers of a single contract, all importers", "why_tests_cant": "Results are collected in dictionaries by name; that none is overwritten concerns all sets of files and contracts.", "anchors": ["src/execution/sol_compilation.py: SolidityCompilation._process_json_output, process_importer_standard_output", "src/parser/parser.py: parse_CFG_from_json_dict", "src/execution/main_execution.py: main"]}
{"id": "C94", "title": "A whole contract with its subobjects: what is written is right at every place", "statement": "Let the compiler be run on a document with an object, its subobjects, their subobjects, and so on. Whatever layouts, schedules and orders of analysis it uses: if it raises no exception for any object and writes an assembly, then the assembly has code exactly at the places where the document has an object (the main code, and under the numbers of the subobjects in .data, to any depth), and the code at each place ends with the same operation, arguments and state as the document of that object, or runs forever if that does; for objects with variables that are kept in memory, up to the contents of the cells. Provisos: no two objects have the same name; every object meets the provisos of C86, including what the compiler relies on without checking it.", "quantifier": "all documents with subobjects to any depth and number, all objects in them, all initial states, all orders of visiting blocks, all schedules the search may return and all choices of the reparation", "why_tests_cant": "The tables of call sites and of tags are shared between the objects of a contract and indexed by name, the nesting is unbounded, and the behaviour of the code ranges over all initial states.", "anchors": ["src/execution/main_execution.py:analyze_single_cfg", "src/cfg_methods/preprocessing_methods.py:preprocess_cfg", "src/greedy/ids_from_spec.py:recursive_cfg_spec_ids", "src/solution_generation/reconstruct_bytecode.py:recursive_asm_from_cfg_object", "src/solution_generation/reconstruct_bytecode.py:asm_from_cfg"]}
{"id": "C95", "title": "Variables kept in memory: the cells chosen by the reparation hold the right values", "statement": "Let a document be compiled and let some variables be too deep in the stack, so that the schedules load them from memory. If the stores are placed by the traversal of the dominance tree, at the positions recorded by the reachability analysis, and the cells are given out by the scan of that tree, then every load finds the value of its variable, and the assembly ends with the same operation, arguments and state as the document up to the contents of the cells, or runs forever if the document does. That the memory holds the right values at every block is derived from the choice of the compiler, not assumed. Provisos: those of C86; what the compiler does not ensure and that is therefore assumed: the components are in static single assignment form, no variable has two stores in the schedules themselves or one there and one inserted by the traversal, no store is left for above the root, a cell released inside a loop is not needed when the loop comes back, no variable is kept in a cell across a call that comes back to its own component, the stores are not in blocks that end in a call, and no phi function writes a cell.", "quantifier": "all documents, all control-flow graphs and dominance trees, all schedules with loads, all placements and cells the reparation may choose, all initial states and all numbers of iterations and calls", "why_tests_cant": "The store is in one block and the load in another, along every path between them, through every number of iterations and calls, and the cell may have been given to another variable in between.", "anchors": ["src/reparation/insert_placeholders.py:store_stack_elements_block", "src/reparation/tree_scan.py:TreeScan", "src/reparation/reachability.py:construct_reachability_block", "src/reparation/repair_unreachable.py:repair_unreachable_blocklist", "src/execution/main_execution.py:analyze_single_cfg"]}
{"id": "C96", "title": "The whole command: every contract that is written is right", "statement": "Let the command be run on a standard-JSON input and let solc answer without errors. If the command ends without an exception, then the combined output has an assembly, and the table of contracts a bytecode, for exactly the contracts with a graph, in the order of the answer; the assembly of each contract has code exactly at the places where its document has an object, to any depth, and the code at each place ends with the same operation, arguments and state as the document of that object, up to the cells of variables kept in memory, or runs forever if that does; and the bytecode is what solc makes of that assembly. Provisos: no two contracts of the input have the same name; those of C94 and C95.", "quantifier": "all answers of solc with any number of files and contracts, all documents with subobjects, all choices of the analyses, the scheduler and the reparation, all initial states", "why_tests_cant": "The contracts share tables and dictionaries and are written one after the other; the number of contracts and the nesting are unbounded, and the behaviour of each piece of code ranges over all initial states.", "anchors": ["src/execution/main_execution.py:main", "src/execution/main_execution.py:analyze_single_cfg", "src/execution/sol_compilation.py:SolidityCompilation", "src/parser/parser.py:parse_CFG_from_json_dict"]}
{"id": "C97", "title": "The depth option bounds the stack positions that the reparation duplicates", "statement": "Whatever number the option -d is given, the program either refuses it or works with it; it refuses exactly the numbers that are not positive, and without the option the depth is 16. With every accepted depth, what the reparation writes for a block without call consists of the instructions that were there, pushes of addresses, loads, stores, and duplications of stack elements within that depth. So with a depth of at most 16 every duplication is an EVM instruction. The program accepts greater numbers too, and then it can write DUP17, which is no instruction.", "quantifier": "all values of the option, all schedules, stacks, sets of variables to store and cells", "why_tests_cant": "Tests use a few depths and stacks; which element the reparation duplicates depends on the whole schedule of the block.", "anchors": ["src/execution/args_parser.py:parse_args", "src/global_params/constants.py:MAX_STACK_DEPTH", "src/reparation/reachability.py:update_reachable", "src/greedy/greedy_info.py:insert_dup_vset", "src/reparation/tree_scan.py:_emit_dup_vset"]}
{"id": "C98", "title": "Liveness that passes the validation is right", "statement": "validate_liveness compares, block by block, the liveness computed by the analysis with the one that solc reports in the input. When it accepts, every reported variable of a block from which the program can end is live there, or assigned by a phi function at the beginning of the block, or returned by the function at its end. If moreover the analysis stops, every block leads to a terminal one, and every variable that is live into a successor of a block and assigned by a phi function of another successor is an argument of a phi function for the block, it accepts exactly the reports that list, once each, all live variables and phi results at the beginning and all live variables at the end (names that begin with out left aside, returned values optional). For other graphs it accepts reports that omit live variables. The comparison covers the objects of the document and their direct subobjects; deeper ones are not looked at.", "quantifier": "all graphs, sets of terminal blocks and reported lists", "why_tests_cant": "Tests compare a few outputs of solc; whether an accepted report is right depends on all paths of the graph, and a report that is wrong in the same way as the analysis passes every comparison.", "anchors": ["src/analysis/validate_liveness.py: validate_liveness, perform_liveness_analysis, liveness2json", "src/liveness/liveness_state.py: LivenessBlockInfoSSA", "src/parser/parser.py: parse_block"]}
{"id": "C99", "title": "The table of calls counts the calls of each object", "statement": "For every contract the program writes a table with one row for each object: its name, the number of its functions and the number of instructions in it that call one of them. There is exactly one row for each object, an object comes before the ones below it, and the number of functions is right. The number of calls is never too small; the whole table is right exactly when no object in which something is called has a sibling after it. Otherwise the calls of an object are counted again for its later siblings.", "quantifier": "all nested graphs with any number of objects, functions and blocks", "why_tests_cant": "The error needs two objects in the same graph, as when a contract creates another one, and the number is plausible, so that a test has to count by other means.", "anchors": ["src/analysis/solution_analysis.py: function_frequency, generate_function2blocks_block_list", "src/execution/main_execution.py: main"]}
{"id": "C100", "title": "The liveness analysis runs for ever exactly on restless cycles", "statement": "Call an edge from a block P to a block B restless if the program can end from B and some variable is found at the beginning of B although it can never be found at the end of P: a phi function of a successor of P assigns it, and no phi function takes it from P. Started at blocks without successors, the liveness analysis of a program stops if and only if no cycle of its control flow graph consists of restless edges only.", "quantifier": "all well-formed control flow graphs, with the blocks in any order, and all numbers of iterations", "why_tests_cant": "A test that does not stop cannot be told from one that is slow, and the condition ranges over all cycles of all graphs.", "anchors": ["src/analysis/fixpoint_analysis.py: BackwardsAnalysis.analyze", "src/liveness/liveness_state.py: LivenessState.leq", "src/liveness/liveness_analysis.py: LivenessAnalysisInfoSSA.propagate_state, construct_analysis_info_from_cfgblocklist"]}
{"id": "C101", "title": "The state of the alternative scheduler agrees with its schedule", "statement": "The alternative scheduler keeps a symbolic state beside the schedule it emits. After any sequence of its steps that raises no exception: the state counts correctly how often each variable is in the stack; the positions it calls unsolved are exactly those where the stack, compared with the final stack from the bottom, does not hold what is wanted; the position it takes for the deepest misplaced one is misplaced, and is the deepest one; the copies still needed of a variable, those in the stack and those consumed add up to the number needed at the beginning, so that after all instructions nothing is needed and nothing is to be removed exactly when the stack is a permutation of the final stack; the counter of loads says how often each variable has been retrieved; and the validator that executes the emitted schedule arrives at the stack of the state.", "quantifier": "all initial and final stacks, all specifications and all sequences of steps, whatever the heuristics choose", "why_tests_cant": "The heuristics choose among many steps, and an error in the records only shows in later choices; a test sees one sequence.", "anchors": ["src/greedy/greedy_new_version.py: SymbolicState, SMSgreedy._compute_var_total_uses", "src/analysis/symbolic_execution.py: execute_instr_id"]}
{"id": "C102", "title": "Unused elements are removed from the stack", "statement": "When the alternative scheduler cannot reach a position, it first removes from the stack the elements of which there are more copies than needed. The removal ends; it raises no exception; when it returns, none of the 17 topmost elements is one to be removed; it only exchanges and pops, and the validator that executes the emitted instructions arrives at the stack of the state.", "quantifier": "all stacks and all numbers of copies needed", "why_tests_cant": "The removal changes the stack it scans, and the behaviour at the end of the scan depends on how many elements are left; tests only see some stacks.", "anchors": ["src/greedy/greedy_new_version.py: SMSgreedy.pop_unused_elements, SymbolicState.swap, SymbolicState.pop"]}
{"id": "C103", "title": "The last phase of the alternative scheduler puts every permutation in order", "statement": "When all elements have been computed, the alternative scheduler exchanges elements until the stack is the final one. If the stack is a permutation of a final stack of at most 17 elements and nothing is to be removed, then this phase ends and raises no exception, it emits only exchanges with depth 1 to 16, fewer than twice the number of elements, and the validator that executes them arrives at the final stack. Whenever the phase returns, the stack is the final one.", "quantifier": "all final stacks of at most 17 elements, all permutations of them, with elements that occur several times, and all states that the preceding steps can reach", "why_tests_cant": "There are 17! orders of 17 elements, and a wrong choice of the place to exchange with would make the loop run for ever.", "anchors": ["src/greedy/greedy_new_version.py: SMSgreedy.solve_permutation, SMSgreedy._available_positions, SymbolicState.swap"]}
{"id": "C104", "title": "The last phase of the alternative scheduler removes what is not wanted", "statement": "If the stack has at most 17 elements, among them all those of the final stack as often as they occur there, and others, in any order, and the number of copies needed of each variable is recorded, then the last phase of the alternative scheduler ends and raises no exception. It emits at most as many instructions as the stack has elements and twice those of the final stack, and one more, and the validator that executes them arrives at the final stack.", "quantifier": "all final stacks, all further elements and all orders, with at most 17 elements in total", "why_tests_cant": "Positions are compared from the bottom and move with every removal, so that an error shows only for some orders of wanted and unwanted elements.", "anchors": ["src/greedy/greedy_new_version.py: SMSgreedy.solve_permutation, SMSgreedy._available_positions, SymbolicState.swap, SymbolicState.pop"]}
{"id": "C105", "title": "The last phase of the alternative scheduler makes room for what is out of reach", "statement": "If the deepest misplaced position is more than 16 elements below the top, the last phase of the alternative scheduler first removes unused elements and then stores elements in memory. After that the position is within reach; only topmost elements are stored, each of them can be loaded again, and if the wanted element is one of those in memory there is room to load it. The phase ends and raises no exception, for stacks of any size. Whenever it returns, the stack is the final one and the validator that executes the emitted instructions arrives at it.", "quantifier": "all stacks, final stacks and numbers of copies needed", "why_tests_cant": "Failures need more than 17 elements, repeated variables and particular orders.", "anchors": ["src/greedy/greedy_new_version.py: SMSgreedy.solve_permutation, SMSgreedy.reach_position_stack, SMSgreedy.move_vars_to_memory"]}
