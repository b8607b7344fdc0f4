# Formal model of costa-group/grey — design

`grey` compiles the Yul control-flow graph (SSA form, JSON produced by `solc`) to EVM assembly:
parse → rename → inline → merge/remove blocks → insert jumps and tags → split blocks →
liveness and stack layouts → a greedy scheduler per block, each result re-checked by a
validator → repair of unreachable variables (spilling to memory) → assembly.

The model (`lean/Verif/`) is a *shallow* one: each Python function becomes a total Lean function
over `List`, `Nat`, `Int`, `Option`, `Except`, mirroring its branches. Python exceptions and failed
`assert`s become `none`/`Except.error`. Each definition cites the file and lines it models.
Mutation becomes state passing; loops become structural recursion or recursion on fuel, with a
theorem that the fuel suffices where termination is part of the claim.

Layout of the Lean project: for each area `X`
* `Verif/X/Model.lean` (or `Verif/X.lean`): the model, with citations;
* `Verif/X/Spec.lean`: the independent specification (semantics, graph paths, …), where one is needed;
* `Verif/X/Lemmas.lean`: helper lemmas;
* `Verif/X/Theorems.lean`: the property theorems only, each with an `example` showing that a concrete
  non-trivial case meets the hypotheses.

## Plan per property

| id | what is modelled | how it is proved |
|----|------------------|------------------|
| C01 | `execute_instr_id`, `check_execution_from_ids` | spec: a stack machine over arbitrary values with arbitrary interpretations of operations; simulation by induction on the id list |
| C02 | `check_deps` | unfold, max/min over position lists characterised by membership |
| C03 | last loop of `check_execution_from_ids` | direct |
| C04 | dependence relation as a list of pairs; schedules as lists | trace (Mazurkiewicz) equivalence: induction moving the first operation of one schedule to the front of the other |
| C05 | `overlap`, `are_dependent_interval` | integer arithmetic |
| C06 | `get_expression`, `get_interval`, `compute_memory_dependences` | spec: evaluation of a straight-line program and byte footprints of opcodes; expressions evaluate to run-time values (induction on the definition order); list-comprehension membership |
| C07 | `compute_storage/transient_dependences`, `are_dependent_accesses` | expected to fail for `x` against an expression containing `x`; refute with a witness, prove the rest |
| C08 | all four `compute_*_dependences` | membership in the list comprehension |
| C09 | `detect_unused_instructions`, `compute_dependency_graph`, `dfs` | DFS = reachability; evaluation semantics on the kept instructions |
| C10 | `number_encoding_size`, `get_num_bytes_int`, `get_ins_size` | induction on the shift loop |
| C11–C13 | `liveness_state.py`, `liveness_analysis.py`, worklist of `fixpoint_analysis.py` | worklist invariant (pending blocks justify unsatisfied equations); liveness paths by induction; precision as invariant of every step |
| C14–C16 | `liveness/utils.py`, `output_stack_layout` | loop invariants: permutations, suffix optimality |
| C17 | `unify_stack_joint`, `generate_phi_func` | map/zip reasoning |
| C18 | `substitute_duplicates` | induction; expected to fail on ≥3 copies |
| C19–C20 | `variable_renaming.py` | invariant: the dictionary is injective and below the counter; simulation |
| C21 | `tag_from_tag_dict`, tag handling in splitting | invariant by induction over operation lists |
| C22–C23 | `SplitBlock`, `MergeBlocks` and helpers | simulation between graphs: instruction traces of executions |
| C24 | `union_find_search`, merging loop | invariant over sequence of merges |
| C25 | `_determine_idx` | invariant over a history of inlinings |
| C26 | `_nodes_to_remove` | reachability |
| C27 | `validate_block_list_comes_from` | DFS invariant |
| C28 | `PhiWebs` | union–find refinement to an equivalence closure |
| C29 | colour assignment and tree scan | scan invariant |
| C30 | slot assignment | arithmetic |
| C31 | `_emit_copies` | stack/memory semantics of the emitted code |
| C32 | `GreedyInfo` bookkeeping | index-shift invariant |
| C33 | `traverse_cfg_block_list`, `locate_fallsto_block` | expected to fail; witness + partial |
| C34 | `bytecode2asm` | induction on the byte list |
| C35–C36 | `graphs/cfg.py` | worklist/DFS invariants |
| C37 | `split_json` | scanner invariant |
| C38 | `cost_computation.py` | termination measure: untraversed functions |
| C39 | opcode table | `decide +kernel` over the complete table |
| C40 | `apply_transform` | case analysis over rules, `BitVec 256` lemmas |
| C41 | `check_execution_from_ids` with stores, loads and effects | refinement of a machine with stack and state; trace equivalence lifts C02–C04 |
| C42 | `simplify_dependences`, `detect_unused_instructions` in the order `build_spec` runs them | transitive closure of the reduced relation; witness where the removed instruction carried the order |
| C43 | `last_block_*`, layouts of exits | case analysis of the exit kinds |
| C44 | `forget_values`, `_can_be_reused` | invariant over the liveness sets |
| C45 | `get_first_constant`, `set_first_constant` | list update reasoning, witnesses for repeated ids |
| C46 | `StoreInfo`, store insertion of `insert_placeholders.py` | positions of a list with insertions |
| C47 | whole validator | both directions: accepted iff the symbolic run reaches the target |
| C48 | `joined_stack`, start layouts of joins | zip reasoning over predecessor layouts |
| C49 | `_process_uses`, `_process_instruction`, `build_specification` (`cfg_block.py`, `cfg_instruction.py`) | loop invariant: every id in the built specification evaluates to the value the block gives it |
| C50 | as C49 | spec is well formed: every id used has a producer; refuted by witnesses, then partial |
| C51 | as C49 + dependence analyses + validator | composition: C49 (values), C06/C07 (conflicts covered), C41 (accepted order refines) on an arbitrary EVM interpretation |
| C52 | `LayoutGeneration` (driver over the blocks), `unification_block_dict` (`Verif/Layout/Driver.lean`) | invariant of the work list over the stacks fixed so far (`DInv`), measure for termination; witnesses for blocks before two joins and for the assertion |
| C53 | control flow graphs with calls and phi functions as a transition system, the stack machine that runs scheduled blocks (`Verif/Program/Spec.lean`), the compiler pipeline layouts → specifications → accepted schedules (`Verif/Program/Compile.lean`) | simulation relation `Sim` with one summary of the pending returns (`Rest`), forward and backward (`machine_deterministic`); C51 for single blocks and C52 for edges; a program with a call, a branch and a join as example |
| C54 | the translation of schedules to assembly items (`Verif/Output/Asm.lean`), `traverse_cfg` over the model of the traversal of C33 (`Verif/Program/Flat.lean`); a machine with a program counter over a list of items (`Verif/Program/FlatSpec.lean`) | items of accepted ids mean what the ids mean (`Emit.lean`), the traversal puts every block once and fall-throughs behind each other (`FlatOrder.lean`), simulation of the machine of C53 by the flat machine (`FlatTheorems.lean`), determinism for the converse; the program of C53 as example |
| C55 | the fields `_terminal_blocks`, `_function_return_blocks` in the block list model of C22–C26 | every edit keeps the types of the other blocks (`SameTypes`), adding and removing keep the lists exact (`Verif/Cfg/Exits.lean`) |
| C56 | `InlineFunction.perform_action` on the block lists of C22 (`Verif/Inline/Model.lean`); the meaning of objects with functions: a machine with a frame per activation, one instruction per step (`Verif/Inline/Spec.lean`), strict single assignment form by paths without definitions | the graph after inlining in closed form (`Shape.lean`), what is available at each point (`Path.lean`), relation of environments (`Env.lean`), lock-step simulation with all activations on the stack (`Sim.lean`, `Lockstep.lean`) |
| C57 | `inline_functions` for one object: call positions, `_determine_idx` on blocks, `block2current`, removal of functions (`Verif/Inline/Pass.lean`); the order is a parameter; the graph of calls and what networkx documents about its order (`Verif/Inline/Order.lean`) | well-formed objects stay well-formed (`Kinds`, `SsaAfter`, `OkAfter`, `ObjAfter`), calls are moved and not copied (`calls_back`), positions by C25, induction over the order (`PassProof.lean`); object with four functions as example, certificate checker (`Check.lean`) |
| C58 | `combine_remove_blocks_cfg` for one object (`Verif/Prep/Combine.lean`) on the machine of C56 | a merge or a removal of blocks moves positions of activations (`Verif/Prep/Body.lean`: simulation in which the merged program may stay where it is; `Merge.lean`); C24 carries it through all merges |
| C59 | `rename_variables_cfg` for one object (`Verif/Prep/Rename.lean`, on C19's renaming of components) | injective renaming by component: lock-step simulation with environments related where variables are available; well-formedness is carried over (`RenameOk.lean`) |
| C60 | `preprocess_cfg` up to combining, for one object (`Verif/Prep/Pipeline.lean`) | C59, C57 and C58 in a row; inlining keeps graphs tidy (`TidyAfter.lean`: edges after inlining, runs of blocks project to runs of the caller or of the function) carried through the pass as an extra invariant; calls are the same after renaming |
| C61 | `insert_jumps_tags_cfg`, `split_blocks_cfg` for one object, and the program of C53 that results (`Verif/Lower/Model.lean`) | splitting preserves the executions of objects (`Split.lean`); lockstep invariant: the lowered object is, block by block, an object with the same executions plus jumps and tags (`Deco.lean`, `Step.lean`, `Loop.lean`, `Insert.lean`); simulation between objects and programs in both directions (`Sim.lean`, `Blocks.lean`, `Runs.lean`) |
| C62 | as C61 | read off the block-by-block correspondence of C61 |
| C63 | `preprocess_cfg` for one object (`frontEnd` in `Verif/Front/Theorem.lean`) | C60 and C61 in a row: what C61 demands of an object is established from what the parser delivers. An invariant of the inlining pass (`Part.lean`, `Inline.lean`: reachable blocks have a proper kind, dead second halves are only reachable from nowhere, tags of names stay plain), then what merging and removal make of it (`Combine.lean`) |
| C64 | as C63, C52, C53, C54 together (`Verif/Whole/`) | `Whole/Names.lean`, `Emit.lean`, `Flat.lean`: what C53 and C54 demand of a program (names, kinds, tags, layouts of calls) is established for the program that C61 delivers; an additional invariant of renaming, inlining, merging and splitting (`Lower/Fine.lean`, `Ending` in `Front/Part.lean`) says that entries are exactly the predecessors and that the kind of a block agrees with its last instruction. Then C63 and C54 in a row (`Lowered.lean`, `Theorem.lean`). Partial: the checks on analyses, layouts, schedules and placement (`Checked`) are hypotheses |
| C65 | `parser.py`, the constructor of instructions, exits of blocks (`Verif/Parser/Model.lean`) | a machine for documents (`Parser/Spec.lean`), written without looking at the parser; the parser is brought into a closed form (`Parser/Blocks.lean`: induction over the blocks and over the dictionary of predecessors), then the machine for documents and the one for objects run in lockstep (`Parser/Theorem.lean`). Partial: results without an underscore in the name are swapped (`results_swapped`) |
| C66 | the translation of the built-in functions of Yul (`Verif/Parser/Builtins.lean`) | invariant of the dictionary of numbers: different names have different numbers below the counter, and numbers given are never changed |
| C67 | as C65 and C64 | C65 and C64 in a row |
| C68 | the ids that `tree_scan.py` writes for a block with loads, stores and copies (`Verif/Stored/Model.lean`), on C54's emission | facts "variable in cell" before and after every block, carried through a block operation by operation (`Stored/Block.lean`, `Emit.lean`), over edges and calls (`FramesOk` in `Theorems.lean`), by the simulation of C54 made independent of how variables are kept (`Program/Generic.lean`) |
| C69 | the recursion of parser, front end and output over subobjects, with the dictionaries that all objects share (`Verif/Nested/Model.lean`) | trees of objects; with distinct names the dictionary lookups give each object its own entry, so that every pass acts on every object by itself (`Nested/Passes.lean`, mutual induction over trees and lists of trees); then C67 for every object, along every path of the output. Partial: as C67, and distinct names (`same_name_breaks_tags`) |
| C70 | the numbers of subobjects, the translation of references (`Parser/Builtins.lean`), the keys of `.data` | printing and reading of hexadecimal numbers, position in a list |
| C71 | the loop of `compute_permut_and_clean`, branch by branch (`Verif/Permute/Model.lean`), a machine with registers (`Spec.lean`) | invariant "the instructions so far lead to the current stack, and every register in the list holds the value of its variable" through every branch (`Permute/Partial.lean`), induction over the rounds |
| C72 | `remove_useless` (`Verif/Permute/Model.lean`), on the machine and the validator of C01 | induction along the two lists; ids other than `SWAP1` keep their order (`Permute/Drop.lean`) |
| C73 | as C71, and `add_solved` | invariant `Good` (numbers of values, marks exactly at right positions, `lpos` within the right part at the bottom), a lexicographic measure of eight components (number of values, garbage on top, length of the right part at the bottom, whether the missing value is on top, then registers, unmarked positions and marks, `Permute/Measure.lean`), each kind of round keeps the one and decreases the other (`Rounds.lean`, `Rounds2.lean`), well-founded induction (`Total.lean`) |
| C74 | the whole scheduler, function by function (`Verif/Greedy/Model.lean`), its questions and its plan as parameters | invariant "the instructions so far lead from the input stack to the current stack", through every function that emits instructions (`Greedy/Track.lean`, `Loop.lean`), where computing a value only adds it on top of the stack; the last phase through a general form of C71's invariant; ids are read by the checker as what was meant (`Theorems.lean`) |
| C75 | as C64, C67 and C68 | C68 instantiated with the program of the front end; the checks collected in `CheckedStored` (`Whole/Stored.lean`) |
| C76 | `repair_unreachable` (phi functions), `fix_inaccessible_phi_values`, `construct_reachability` on a dominance tree (`Verif/Repair/PhiRepair.lean`); sets are lists in any order | invariant of the worklist (handled variables are needed; arguments of handled ones are handled or on the stack, above every other occurrence); measure: arguments of unhandled phi functions plus length of the stack; webs from C28; induction over the tree |
| C77 | the loop nesting forest (`Verif/Graphs/Forest.lean`), `variable2block_header`, `entry_loop`, `within_loop`, joined with the model of C46 (`Verif/Repair/LoopScope.lean`) | loops from C35 and C36; a dictionary filled from a sorted list keeps the largest; induction over the list of headers; the block that declares a variable has the same entry as the variable; induction over the dominance tree: when all loads are below such a block nothing is left above it |
| C78 | `store_stack_elements_tree` (the number returned), `repair_unreachable` (the sum), insertion of the stores over the tree (`Verif/Repair/Cells.lean`), with the models of C28, C29, C32, C46, C74, C76 | every picked colour is at most the number of earlier picks, since all smaller ones are taken; each `DUP-VSET` is a different variable with a positive counter (C46), each phi function to solve is in a web, and in each schedule every `VSET` is paired with a later load of the same value (`Verif/Greedy/Registers.lean`, invariant of the permutation) |
| C79 | the whole greedy scheduler as for C74 (`Verif/Greedy/Model.lean`), theorem in `Verif/Greedy/Writes.lean` | every function of the scheduler adds to the schedule only instructions with a result and the writes it was given (`Adds`, structural induction on the call tree); the main loop takes writes from the front of the plan (`Took`, induction over its rounds); removing useless swaps keeps all other instructions |
| C80 | `target` with `get_min_deps_map`, `get_max_pos_noSTORE`, `join_positions`, `sort_with_deps`, `remove_nostores_and_rename`, `needed_nostores`, `add_needed_nostores_in_stack` (`Verif/Greedy/Order.lean`); `needed`, `all_needed`, `computed` are parameters, any answers | levels increase along dependencies and each one has a predecessor one level below, so no level is empty (`Levels.lean`); joined levels are runs with stores only in the first (`Runs.lean`); induction over the runs: assertions hold, writes are permuted, nothing depends on something later (`SortLoop.lean`); later passes keep the list of writes (`Target.lean`); with C79 for schedules (`Effects.lean`) |
| C81 | `insert_variables_for_constants_block_list`, `insert_constants_block_dominant_preorder`, `insert_constants_block`, for any rule instead of `decide_if_propagated` (`Verif/Consts/Model.lean`) | structural induction over the dominance tree: what is known in a block was introduced there or in a dominating block (`visit_done`); simulation of block executions, in which the variables introduced in all blocks visited so far hold their constants (`constants_keep_behaviour`); the rule of the code picks nothing (`shipped_changes_nothing`) |
| C82 | `cfg_block_list_spec_ids`, `cfg_object_spec_ids`, `recursive_cfg_spec_ids`, `repair_cfg`, `repair_cfg_objects`, `repair_unreachable_blocklist`, `_emit_valid_bytecode` (`Verif/Repair/Driver.lean`); an executable repair of a list (`Verif/Repair/Program.lean`) | a list with a load has a positive number of cells (`repaired_has_cells`), so its blocks are rewritten id by id; a list without loads has no stores by C78's count of stores (`no_stores`); induction over lists, functions and nested objects; the bases of the lists are those of C30 (`each_bases`) |
| C83 | `compute_dominance_tree` by the definition of dominance: which blocks are cut off without `a`, immediate dominators, walks up the tree, levels (`Verif/Graphs/Dominance.lean`) | reachability computed by saturation is reachability; dominators of a block form a chain (`Dominates.total`), so immediate dominators exist; induction on the number of strict dominators for walks |
| C84 | `compute_variable_depth` with its tuples and dictionaries (`Verif/Layout/Depth.lean`) | invariant of the loop over the reversed order: recorded depths are realised by edges and uses |
| C85 | the constructor of `LayoutGeneration` on a component: liveness from terminal blocks, digraph of analysed blocks, dominance, depths, loops; orders of dictionaries and topological sort are parameters (`Verif/Lower/Analyse.lean`) | lowered components satisfy the conditions of the liveness theorems (`live_wf`, `Whole.lowered_analysable`); with C10, C83, C84 and C77; used to drop the condition on live variables from C64, C67, C75 (`Verif/Whole/Analysed.lean`) |
| C86 | the compiler as one function from an object to its assembly, `none` for every exception: front end, analyses, layouts, specifications, `cfg_block_spec_ids` with its assertion, reconstruction; the schedules are arbitrary (`Verif/Whole/Pipeline.lean`) | success of the assertion gives the acceptance that C53 needs; names, operations and their meaning are carried from the source to the blocks (`block_ops`, `stack_names`); strictness (every use is preceded by its definition on all paths) is kept by merging and splitting blocks (`Verif/Lower/Defined.lean`); that blocks do not assign what they start with is C88; with C64 and C85. with its scheduler: C89 (`Verif/Whole/Scheduled.lean`); with the loads and stores of the reparation, whose choices are parameters: C75 and C88 for stored variables (`Verif/Whole/StoredPipeline.lean`). Assumed: what the compiler does not check (`Unchecked` in `Verif/Whole/PipelineSpec.lean`) |
| C87 | the layout generation of C52 (`Verif/Layout/Origin.lean`) | invariant of the loop over the heap: `P` holds of every name on every stack found so far, for every `P` that holds of the names of the component |
| C88 | paths of a component along which a variable is not assigned (`Unassigned`), the layouts of C52 and the validator of C21 (`Verif/Program/Assigned.lean`, `Verif/Whole/Tags.lean`) | the names of an accepted target stack come from the initial stack or are computed in the block (`Sfs.reached_from`: invariant of the builder and of the symbolic execution); with C52 on edges, induction over the path; tags: they are never live, since blocks push them before they use them ; with stored variables: the names in the cells and on the stack by one induction (`Verif/Stored/Assigned.lean`) |
| C89 | the scheduler of C67 (`Verif/Greedy/Model.lean`), its ids (`ScheduledId`), `greedy_standalone`, and the compiler with its own scheduler (`compileScheduled`, `Verif/Whole/Scheduled.lean`) | every step keeps that emitted instructions are in the table (`Verif/Greedy/From.lean`, nothing is assumed about the specification); depths by `check_dup_swap`; ids of a built specification are names with numbers (`Verif/Sfs/BuildIds.lean`) |
| C90 | `process_sol_output`, `process_contract_output`, `filter_information_from_contract` on lists of characters; the regular expressions as the searches they stand for (`Verif/Solc/Output.lean`) | the mark of a header cannot overlap a later one (its first character does not occur again in it); induction over the contracts |
| C91 | the working directory, the command and the attributes of the object as a state, solc and the file system as parameters (`Verif/Solc/Directory.lean`) | case analysis for one compilation, induction over several |
| C92 | JSON objects as lists of entries, the shared settings passed from contract to contract (`Verif/Solc/Settings.lean`) | invariant: what is left of the shared settings gives the same settings for the next contract |
| C93 | `_process_json_output`, `parse_CFG_from_json_dict`, the loop of `main`; compiling one contract and the importer are parameters (`Verif/Solc/Main.lean`) | dictionaries with different names are lists; induction over the contracts |
| C94 | `Verif/Nested/CompileSpec.lean`, `Compile.lean`, `CompileExample.lean`: `compileDocs`, from the document with subobjects to the nested assembly, with the analyses, the scheduler, the check of the schedules and the reparation of every object | per object the result is the one of `compileScheduled` or `compileStored` (C86), because the shared tables have distinct keys (`frontDocs_eq`, C69); induction on the nesting for the places |
| C95 | `Verif/Repair/Kept.lean`, `Verif/Stored/Kept.lean`, `KeptPlaces.lean`, `Chosen.lean`, `DomTree.lean`, `BuildTree.lean`, `Single.lean`, `Addresses.lean`, `Once.lean`, `Reachable.lean`, `Verif/Whole/Placed.lean`, with an object of 17 live variables in `PlacedExample.lean`, `PlacedRun.lean`: the reachability dictionaries, the placement of the stores, the inserted duplicates, the scan and its cells, all as computed by the code, feeding the contents of memory that C86 needs | the store dominates its loads by C31 (`reads_stored`), the inserted duplicate stores its variable by C33, the cells held along a branch are distinct by C30 (`held_distinct`), an edge of the graph leads from a node to a child of one of its ancestors-or-self so what is held at the target is held at the source unless released (`edge_kept`); in the tree of immediate dominators the block above a block is above its predecessors (`DominanceTree.above`), and what is stored has been assigned on every path, so that in single assignment form it is not assigned again below (`stored_then_constant`); then C86 with these places |
| C96 | `Verif/Nested/Command.lean`, `CommandExample.lean`: `command`, from the answer of solc to the combined output and the table | `json_all_partial` and `main_results` (C93) with `compileDocs` as the compilation of one contract, then `contract_placed_partial` (C94, C95) for each |
| C97 | `Verif/Repair/DepthOption.lean`: `parse_args` after the options have been read, the positions that the reparation records with that depth, the insertion of stores and the ids written | C32 gives the position of every inserted store; induction over the ids that are written |
| C98 | `Verif/Liveness/Validate.lean`: the comparison of the analysis (C11-C13) with the reported lists, for the components of the objects and their direct subobjects | the sorted lists agree iff the sets do and nothing is reported twice; then C12 (`live_precise`) and C11 (`live_sound_iff`) |
| C99 | `Verif/Solc/Frequency.lean`: `function_frequency` on nested objects, with the counter that is passed on | induction over the objects for every counter |
| C100 | `Verif/Liveness/Stops.lean`: the same model as C13; the specification `Restless` | if there is no restless cycle, the blocks are ranked by the restless paths into them, and a lexicographic measure falls; if the iteration stops, the times of the last visits rank them |
| C101 | `Verif/Greedy/Alternative.lean`: the methods of `SymbolicState` that change the state; the scheduler is an arbitrary sequence of calls of them | invariant of every call (`Right`), positions compared from the bottom (`Misplaced`); the schedule is executed by the model of the validator (C01) |
| C102 | `Verif/Greedy/Unused.lean`: the loop of `pop_unused_elements`, with a number of iterations, on the state of C101 | invariant of the loop: what has been scanned is needed; the number of elements beyond the needed ones falls with every removal |
| C103 | `Verif/Greedy/Permutation.lean`: the loop of `solve_permutation`, with all four cases, on the state of C101 | twice the number of misplaced positions below the top, plus one if the top has no free place, becomes smaller in every iteration |
| C104 | `Verif/Greedy/Trim.lean`: the loop of C103 on a stack with further elements | while there are too many elements, the number of elements plus that of misplaced positions falls; then C103 |
| C105 | `Verif/Greedy/Reach.lean`: `move_vars_to_memory`, `reach_position_stack` and the whole of `solve_permutation` | each part is a sequence of steps of C101; the stores lower the position one by one |

Cannot be expressed in a model: wall-clock time of the greedy scheduler, the exit status of external tools
(`solc`, `evm`), reading and writing of files. They are outside the property list.

## Trusted base

* Lean 4.33.0's kernel. No axioms of our own, no `sorry`, no `native_decide`, no `bv_decide`.
* The standard axioms listed per theorem below.
* The reading of the Python source: the code is never run; every definition of the model cites its source lines,
  and its comment says where it simplifies.
* The specifications (`Spec.lean`, `EvmSpec.lean`, `RefineSpec.lean`, `BuildSpec.lean`, or the head of the file
  where a module has a single file). They are small and do not use the model's helpers.

### Conventions of the model

* Python dictionaries are association lists or functions, Python `set`s are lists or predicates.
  Where Python leaves the iteration order of a set open, the model takes the order as a parameter.
* Exceptions and failed assertions are `none` (or `Except.error`); a property never speaks about a run that raised,
  unless it says that none does.
* `while` loops that are not structurally decreasing take fuel. Either a theorem says that enough fuel exists, or the
  property speaks of runs that returned.
* Python integers are `Int` or `Nat`; EVM words are `BitVec 256` in the rules and `Nat` with explicit reduction, or an
  arbitrary type of values, elsewhere.

### Modelled

| source | what |
|--------|------|
| `analysis/greedy_validation.py`, `analysis/symbolic_execution.py` | all |
| `analysis/instruction_dependencies.py` | all |
| `analysis/fixpoint_analysis.py`, `liveness/liveness_state.py`, `liveness/liveness_analysis.py` | the engine, the state and the transfer functions |
| `analysis/cfg_validation.py` | predecessor check |
| `liveness/utils.py`, `liveness/stack_layout_methods.py` | functionality used for layouts: merging, junk, permutation, unification, reachable elements |
| `liveness/layout_generation.py` | the constructor with the liveness analysis of a component, dominance tree, levels, variable depths, loops (`Verif/Lower/Analyse.lean`); the driver over the blocks and `substitute_duplicates` (for any analyses) |
| `graphs/algorithms.py` | dominance tree (what `networkx.immediate_dominators` documents, `Verif/Graphs/Dominance.lean`), loop nesting forest, the traversals used by other phases |
| `parser/parser.py`, `parser/cfg_block_list.py` | reading a document: instructions, blocks, exits, predecessors, functions, objects with subobjects (`Verif/Nested`); dictionaries of blocks |
| `parser/cfg_block.py`, `parser/cfg_instruction.py` | constructor of instructions, exits, translation of built-in functions, construction of the specification, simplification of dependences, removal of unused instructions |
| `parser/utils_parser.py`, `parser/opcodes.py` | opcode table, sizes, `split_json` |
| `cfg_methods/cfg_block_actions/*`, `cfg_methods/sub_block_generation.py`, `jump_insertion.py`, `variable_renaming.py`, `function_inlining.py` | splitting, merging, combining in all components, inlining of one call and of all functions called once (the order of visiting is a parameter), removal of unreachable blocks, tags, renaming |
| `cfg_methods/cost_computation.py`, `cfg_methods/rule_simplification.py` | costs; `apply_transform` |
| `greedy/greedy_previous_param.py` | the production scheduler: `precompute`, `compute` and everything they call that emits instructions, `check_dependencies`, `check_dup_swap`, `accept`, `remove_useless`, both tries of `greedy_from_json`; `target` up to the order of the plan (C80), its counts of needed values and the questions that only guide choices are parameters |
| `greedy/greedy_new_version.py` | the methods of `SymbolicState` that change it, without the graph of dependencies, `reachable` and the trace; `_available_positions`, `pop_unused_elements`, `move_vars_to_memory`, `reach_position_stack`, `solve_permutation` |
| `cfg_methods/minimizing_constants_insertion.py` | all, for one block list; the rule that picks constants and the dominance tree are parameters (`Verif/Consts`) |
| `graphs/cfg.py` | all |
| `reparation/*` | phi webs, colours, tree scan, slots, copies, placeholders, store positions, first constant, phi functions kept in memory, variables out of reach; which lists are repaired (`repair_unreachable.py:19-101`); the ids written for a block (`tree_scan.py:119-248`) and what their assembly does |
| `execution/args_parser.py` | the check of the depth (`Verif/Repair/DepthOption.lean`); reading the options (argparse) is not modelled |
| `execution/sol_compilation.py`, `execution/main_execution.py` | invoking solc, taking apart its output, settings, the loop over contracts and what it collects (solc itself is a parameter); `analyze_single_cfg` by C86 |
| `solution_generation/bytecode2asm.py`, `reconstruct_bytecode.py`, `utils.py` | disassembly; translation of ids to assembly items, placement of blocks, emission of main code and functions |

### Not modelled

* The heuristics of the greedy scheduler (the counts of `target`, `needed_one`, `stack_too_long`, …: arbitrary parameters), and the choices of the alternative scheduler `greedy_new_version.py` (of which the symbolic state and the last phase are modelled, C101–C105).
  Each schedule is checked by the modelled validator, so that C01–C04, C41 and C51 hold whatever the scheduler returns.
* `greedy/remove_element.py` and other heuristics that only choose among valid answers.
* `translate_builtins.py` (stubs), `constants_insertion.py` (never called), command line, reading and writing files, the `evm` wrapper, the old and the multi-file entry points of `sol_compilation.py` (`process_sol_yul_cfg`, `from_multi_sol`), statistics, graphviz output.
* `apply_semantics_transformation` in `rule_simplification.py` (the file does not compile and is never imported).

### Axioms per theorem

Printed by `#print axioms` for every theorem named in MANIFEST.json:

* **none** (3 theorems): `Graphs.Dominates.antisymm`, `Graphs.Dominates.total`, `Solc.no_metadata`
* **propext** (16 theorems): `Deps.interval_test_exact`, `Layout.substitution_collides`, `Cfg.tags_collide_without_fresh_names`, `Cfg.removal_leaves_stale_predecessors`, `Cfg.split_fails_after_removal`, `Cfg.validator_ignores_entry`, `Repair.colour_shared_at_join`, `Repair.colour_shared_after_two_stores`, `Repair.scan_fails_for_stack_argument`, `Repair.self_loop_exception`, `Graphs.two_back_edges`, `Layout.not_nearest`, `Layout.mem_substDuplicates`, `Solc.compiled_in_folder_partial`, `Solc.directory_lost`, `Frequency.table_wrong`
* **Quot.sound, propext** (39 theorems): `Opcodes.push_bytes_exact`, `Opcodes.push_bytes_diverges`, `Layout.merge_topmost_exact`, `Layout.combine_junk_exact`, `Layout.junk_suffix_optimal`, `Cfg.split_fails_on_self_loop`, `Cfg.split_fails_on_double_edge`, `Cfg.merge_fails_on_phi`, `Cfg.merge_fails_on_back_edge`, `Cfg.merge_loses_entry`, `Cfg.combineRemove_fails_on_entry`, `Repair.exTree_placed`, `Graphs.natural_loop_exact`, `Graphs.back_edges_break_cycles`, `Parser.split_exact`, `Rules.div_self_wrong`, `Rules.shift_by_zero_wrong`, `Rules.shift_of_zero_wrong`, `Layout.combined_start_exact`, `Cfg.empty_exits`, `Prep.combining_fails_on_run`, `Permute.permute_fails`, `Permute.drop_length`, `Permute.drop_clean`, `Repair.unreachable_exact`, `Layout.depth_near`, `Lower.live_wf`, `Solc.split_printed`, `Solc.all_contracts`, `Solc.asked_exact`, `Solc.asked_contract_partial`, `Solc.compiled_each_partial`, `Solc.command_not_file`, `Solc.default_command_fails`, `Solc.json_exact`, `Solc.json_all_partial`, `Solc.opcodes_not_requested`, `Kept.edge_kept`, `Frequency.table_rows`
* **Classical.choice, Quot.sound, propext** (350 theorems): `SymExec.accepted_computes_target`, `SymExec.run_deterministic`, `SymExec.accepted_respects_deps`, `SymExec.violation_rejected`, `SymExec.check_deps_exact`, `SymExec.accepted_effects_once`, `SymExec.effect_not_once_rejected`, `Trace.reorderings_equivalent`, `Deps.overlap_iff_shared_byte`, `Deps.no_overlap_disjoint`, `Deps.memory_deps_cover`, `Deps.storage_deps_cover_partial`, `Deps.transient_deps_cover_partial`, `Deps.storage_alias_missed`, `Deps.create_vs_storage_missed`, `Deps.memory_deps_forward`, `Deps.storage_deps_forward`, `Deps.transient_deps_forward`, `Deps.gas_deps_exact`, `Deps.program_order_satisfies`, `Sfs.simplify_keeps_order`, `Sfs.simplify_minimal`, `Sfs.unused_iff_not_needed`, `Sfs.effects_never_unused`, `Sfs.removal_preserves`, `Opcodes.push_size`, `Opcodes.size_of_operation`, `Opcodes.size_of_pseudo`, `Liveness.live_sound_iff`, `Liveness.live_exact`, `Liveness.live_sound_partial`, `Liveness.live_sound_fails`, `Liveness.keepG_all`, `Liveness.live_precise`, `Liveness.live_precise_always`, `Liveness.stops_at_solution`, `Liveness.visited_iff`, `Liveness.terminates_partial`, `Liveness.never_stops`, `Liveness.spinG_never_stops`, `Liveness.stops_iff`, `Layout.combine_order_exact`, `Layout.output_layout_exact`, `Layout.output_layout_complete`, `Layout.join_stacks_agree`, `Layout.join_stacks_agree_dominant`, `Layout.join_keeps_live`, `Layout.join_dominant_no_gaps`, `Layout.substitution_keeps_deepest`, `Layout.substitution_distinct_partial`, `Layout.substitution_distinct_iff`, `Cfg.renaming_consistent`, `Cfg.renaming_injective`, `Cfg.renaming_constants`, `Cfg.rename_preserves`, `Cfg.renameComponent_preserves`, `Cfg.tags_good`, `Cfg.tags_injective`, `Cfg.request_stable`, `Cfg.split_moves_tag`, `Cfg.split_keeps_jump_tags`, `Cfg.insertJumps_spec`, `Cfg.split_preserves`, `Cfg.merge_preserves`, `Cfg.combine_preserves`, `Cfg.unionFind_spec`, `Cfg.combineRemove_preserves`, `Cfg.inlining_locates_call`, `Cfg.remove_unreachable`, `Cfg.remove_coherent`, `Cfg.validator_exact`, `Repair.webs_exact`, `Repair.find_invisible`, `Repair.webs_counts`, `Repair.colours_distinct_partial`, `Repair.slots_disjoint`, `Repair.phi_copies_parallel_partial`, `Repair.dup_copy_wrong`, `Repair.shared_argument_lost`, `Repair.reachability_exact`, `Repair.insertions_consistent_partial`, `Repair.getCount_exact`, `Repair.store_before_call`, `Repair.getCount_own_exact`, `Output.placement_exact_partial`, `Output.placement_entry_first`, `Output.placement_duplicates`, `Output.placement_two_falls`, `Output.placement_chain`, `Output.placement_entry_displaced`, `Output.disassembly_exact`, `Output.disassembly_regions`, `Output.constant_becomes_label`, `Output.runtime_code_cut`, `Parser.split_values`, `Cost.estimate_exact`, `Opcodes.evm_arities`, `Opcodes.dup_swap_opcodes`, `Opcodes.evm_bytes_partial`, `Opcodes.evm_bytes_distinct_partial`, `Opcodes.opcode_rendering`, `Opcodes.returndatasize_byte_wrong`, `Opcodes.sized_push_byte_wrong`, `Opcodes.no_other_dup_swap`, `Rules.rules_sound_partial`, `Rules.transform_sound_partial`, `SymExec.accepted_refines_block`, `Sfs.removal_keeps_order_partial`, `Sfs.removal_loses_order`, `Sfs.kept_deps_of_kept`, `Layout.terminal_layout`, `Layout.prune_brings_into_reach`, `Layout.forget_exact`, `Repair.setFirstConstant_spec_partial`, `Repair.setFirstConstant_changes_others`, `Repair.setFirstConstant_wrong_instruction`, `Repair.stores_dominate_loads`, `SymExec.accepts_exactly_right_schedules`, `SymExec.classify_vget`, `SymExec.classify_vset`, `Sfs.built_schedule_runs_block`, `Sfs.built_has_schedule_partial`, `SymExec.available_has_schedule`, `Sfs.unused_before_aliases`, `Sfs.alias_chain`, `Sfs.zero_ids_collide`, `Sfs.compiled_block_runs_partial`, `Sfs.logs_reordered`, `Sfs.return_size_reordered`, `Sfs.alias_reordered`, `Layout.layouts_agree_on_edges`, `Layout.layouts_cover`, `Layout.layouts_fail_only_at_assertion`, `Layout.layouts_exact_on_edges`, `Layout.layout_of_start`, `Layout.layout_begins_with_results`, `Layout.layout_of_return`, `Layout.dominant_fails_iff`, `Layout.two_joins_disagree`, `Layout.two_joins_missing_stack`, `Layout.latch_exit_fails`, `Program.compiled_program_runs`, `Program.compiled_program_only_runs`, `Program.machine_deterministic`, `Program.block_compiled_partial`, `Program.generated_code_runs_partial`, `Program.generated_code_only_runs_partial`, `Program.exProg_runs`, `Program.assembly_runs_partial`, `Program.assembly_only_runs_partial`, `Program.run_det`, `Program.targets_unique`, `Program.ex_code`, `Program.invalid_is_removed`, `Program.invalid_runs_on`, `Cfg.split_exits`, `Cfg.merge_exits`, `Cfg.combineRemove_exits`, `Cfg.add_exits`, `Cfg.overwrite_breaks_exits`, `Inline.inlining_preserves`, `Inline.inlining_pass_preserves`, `Inline.inlining_pass_ordered`, `Inline.topological_callees_first`, `Inline.topological_order_exists`, `Inline.inlining_pass_fails`, `Inline.inlining_cycle_fails`, `Prep.combining_preserves`, `Prep.merge_sameRuns`, `Prep.remove_sameRuns`, `Prep.renaming_preserves`, `Prep.preprocessing_preserves`, `Prep.tidy_after`, `Lower.lowering_preserves_program`, `Lower.lowering_calls_last`, `Lower.lowering_tags`, `Front.front_end_preserves`, `Front.preprocessed_lowerable`, `Whole.whole_compiler_partial`, `Whole.whole_compiler_analysed_partial`, `Whole.wh_analysed`, `Parser.parsed_runs_partial`, `Parser.parsed_graph`, `Parser.parsed_coherent`, `Parser.results_swapped`, `Parser.self_loop_lost`, `Parser.entry_ignored`, `Parser.references_kept_apart`, `Parser.translation_local`, `Parser.numbers_collide`, `Parser.short_name_wrong`, `Whole.document_to_assembly_partial`, `Whole.document_analysed_partial`, `Whole.wh_document`, `Stored.stored_assembly_runs_partial`, `Stored.stored_assembly_only_runs_partial`, `Stored.copyOps_texts`, `Stored.evm_memory`, `Stored.recursion_overwrites_stored`, `Nested.documents_to_assembly_partial`, `Nested.frontDocs_eq`, `Nested.same_name_breaks_tags`, `Nested.reference_finds_subobject`, `Permute.permute_correct`, `Permute.drop_run`, `Permute.drop_check`, `Permute.permute_succeeds`, `Permute.permute_total`, `Greedy.greedy_reaches_target`, `Greedy.greedy_check`, `Greedy.greedy_within_reach`, `Whole.whole_compiler_stored_partial`, `Whole.document_to_assembly_stored_partial`, `Whole.document_stored_analysed_partial`, `Whole.wh_stored_document`, `Repair.phi_repair_exact`, `Repair.phi_repair_succeeds`, `Graphs.forest_exact`, `Repair.declared_stored_once`, `Repair.own_block`, `Repair.header_exception`, `Repair.cells_suffice`, `Repair.greedy_cells_suffice`, `Repair.colours_below_stores`, `Repair.scan_succeeds`, `Repair.inserted_total`, `Greedy.greedy_stores`, `Greedy.writes_performed`, `Greedy.effects_once_in_order`, `Greedy.plan_writes`, `Greedy.plan_exists`, `Greedy.load_dropped`, `Consts.constants_keep_behaviour`, `Consts.shipped_changes_nothing`, `Consts.constants_succeed`, `Consts.assignments_are_pushes`, `Consts.written_rule_breaks_phi`, `Consts.short_entries_lose_arguments`, `RepairAll.only_instructions`, `RepairAll.repair_keeps_instructions`, `RepairAll.object_cells`, `RepairAll.repairOne_repairs`, `RepairAll.exProgram_repaired`, `Graphs.dominance_paths`, `Graphs.dominance_levels`, `Graphs.idom_exists`, `Layout.depths_realised`, `Lower.analysis_iff`, `Lower.analysis_live`, `Lower.dead_at_end`, `Lower.analysis_dominance`, `Lower.analysis_depth`, `Lower.analysis_loops`, `Lower.analysis_navigable`, `Lower.standard_ok`, `Lower.endless_loop_fails`, `Whole.front_end_analyses`, `Whole.front_end_layouts`, `Whole.compiled_like_source_partial`, `Whole.compiled_like_document_partial`, `Whole.scheduled_like_source_partial`, `Whole.scheduled_like_document_partial`, `Whole.stored_like_source_partial`, `Whole.stored_like_document_partial`, `Layout.layout_names`, `Program.on_stack_assigned`, `Program.own_not_on_stack`, `Whole.no_tag_between_blocks`, `Sfs.reached_from`, `Whole.starts_without`, `Stored.stored_on_stack_assigned`, `Stored.stored_in_cell_assigned`, `Kept.unassigned_not_stored`, `Greedy.greedy_ids`, `Whole.scheduled_plain`, `Sfs.built_plain`, `Solc.other_contract`, `Solc.file_name_wins`, `Solc.importer_files`, `Solc.input_metadata`, `Solc.input_settings`, `Solc.main_results`, `Solc.same_name_lost`, `Solc.asked_ignored`, `Nested.contract_compiled_partial`, `Nested.planOne_alone`, `Nested.nest_compiled`, `Nested.nest_compiled_stored`, `Nested.contract_placed_partial`, `Whole.placed_like_source_partial`, `Whole.placed_like_document_partial`, `Kept.reads_stored`, `Kept.places_right`, `Kept.block_right`, `RepairAll.cell_reused_in_loop`, `RepairAll.cell_overwritten_by_recursion`, `Kept.arranged_of_tree`, `Kept.DominanceTree.above`, `Kept.stored_then_constant`, `Kept.domTree_right`, `Kept.cells_of_driver`, `Kept.cells_reserved`, `Kept.stores_once_placed`, `Kept.chosen_reachable`, `Nested.command_right_partial`, `Stored.accepted_iff`, `Stored.written_within_depth`, `Stored.duplications_exist_partial`, `Stored.depth_option_too_great`, `Liveness.validated_precise`, `Liveness.validated_iff_right_partial`, `Liveness.validated_wrong`, `Liveness.validateLiveness_iff`, `Liveness.validated_deep_wrong`, `Liveness.loop_validated`, `Frequency.table_right_iff`, `Liveness.keepG_quiet`, `Liveness.spinG_restless`, `Greedy.Alternative.state_right`, `Greedy.Alternative.copies_kept`, `Greedy.Alternative.copies_done`, `Greedy.Alternative.schedule_executes_partial`, `Greedy.Alternative.gets_right_iff`, `Greedy.Alternative.max_solved_wrong`, `Greedy.Alternative.gets_wrong`, `Greedy.Alternative.results_reversed`, `Greedy.Alternative.pop_unused_stops`, `Greedy.Alternative.pop_unused_removes`, `Greedy.Alternative.pop_unused_left`, `Greedy.Alternative.pop_unused_returns_partial`, `Greedy.Alternative.pop_unused_plays`, `Greedy.Alternative.pop_unused_executes`, `Greedy.Alternative.pop_unused_raises`, `Greedy.Alternative.twenty_removed`, `Greedy.Alternative.three_raise`, `Greedy.Alternative.permutation_right`, `Greedy.Alternative.permutation_solved`, `Greedy.Alternative.permutation_solved_later_partial`, `Greedy.Alternative.permutation_example`, `Greedy.Alternative.permutation_raises`, `Greedy.Alternative.surplus_solved`, `Greedy.Alternative.surplus_example`, `Greedy.Alternative.reach_within`, `Greedy.Alternative.room_made_partial`, `Greedy.Alternative.reach_returns_partial`, `Greedy.Alternative.stored_can_be_loaded`, `Greedy.Alternative.phase_right`, `Greedy.Alternative.phase_example`, `Greedy.Alternative.phase_raises`, `Greedy.Alternative.phase_raises_surplus`

## Findings

The properties below are false of the code as it stands. Where a theorem is named, Lean proves it of the model with a concrete
witness; the others were found by reading while modelling.

1. Liveness: the exit set of a block removes the phi results of *all* successors, so a variable alive into a sibling may be lost
   (C11). The worklist does not stop on some cycles of blocks with phi functions (C13).
2. Dependences: `x` and `add(x,0)` are taken as different storage keys; `create` is not ordered with storage
   (`storage_alias_missed`, `create_vs_storage_missed`, accepted schedule: `alias_reordered`).
   Two `log`s are not ordered (`logs_reordered`); `returndatasize` is not ordered with a call (`return_size_reordered`).
   `callcode` has no storage flag, `datacopy` is not in the memory analysis, memory dependences ignore `return`/`revert`.
3. `substitute_duplicates` gives the same name to two of three copies (`substitution_collides`, C18).
4. Colouring: two live variables share a colour at joins, or after two stores of the same variable; `KeyError` when a phi argument is
   on the stack and not stored; `_biased_pick_color` has no `break` (C29).
5. `_emit_copies` loses a copy when two phi functions share an argument, duplicates are off by one, copies for all successors are
   emitted whatever the jump does (C31).
6. Placement: a block emitted twice, two fall-throughs to one block, a chain of fall-throughs, a block that falls to the entry
   displaces it, empty blocks emitted again (C33). `generate_asm_split_blocks` raises for a missing split instruction.
7. `bytecode2asm`: a constant equal to the position of a JUMPDEST becomes a label; code with INVALID is cut silently (C34).
8. Dependences are reduced before unused instructions are removed, which loses order (`removal_loses_order`, C42).
9. Opcodes: sized PUSH padding, RETURNDATASIZE has the byte of EXTCODECOPY, `number_encoding_size` diverges below −2^256
   (`push_bytes_diverges`); `Whigh` is a string; MCOPY, BLOBHASH, BLOBBASEFEE cost 0 (C10, C39).
10. Splitting and merging: self loops, double edges, phi functions, loops that are a run of blocks (`combining_fails_on_run`, C58; `split_fails_on_self_loop`, `split_fails_on_double_edge`,
    `merge_fails_on_phi`, …); removal leaves stale predecessors (C22, C23, C26). Tags collide without fresh names (C21).
11. `set_first_constant` replaces every id equal to the first one (C45). A store for the result of a split call is inserted before the
    call (`store_before_call`, C32).
12. Building a specification: unused instructions are detected before aliases are resolved (`unused_before_aliases`), chains of
    aliases are followed one step (`alias_chain`), `memoryguard(0)` collides with the constant zero (`zero_ids_collide`) (C50).
13. Rules: `div(X,X)`, `shl`/`shr` of and by zero are rewritten wrongly; the first cases of `gt`/`lt` compare with capitals and are
    dead; the file does not compile (C40).
14. `split_json`: braces in strings, a stray `}`, apostrophes (C37).
15. Read only: `verbatim` raises (`split_block = {}` is a dictionary); `check_deps` raises on an empty list of positions; the validator
    accepts SWAP0 and SWAP17; inlining of dead functions that call each other
    raises `KeyError`; `cost_computation` uses `cfg.get_subobject()` inside the loop over objects; the loop nesting forest drops smaller
    loops with the same header; `propagate_input_to_joint` drops positions of phi uses; `build_spec` writes `sms.json` to the
    current directory; `replace_aliasing_spec` discards two of its results; loads outside the dominance tree keep the counter of
    a store from reaching zero.
16. Layout driver: a block before two joins keeps only the stack of one of them, so the other join starts from the wrong stack
    (`two_joins_disagree`) or its stack is missing (`two_joins_missing_stack`); a loop left from its latch makes the assertion of
    `unify_stacks_dominant` fail (`latch_exit_fails`, characterised by `dominant_fails_iff`) (C52).
17. Whole programs: stored variables have fixed addresses per component and recursive functions are not excluded, so that an inner
    activation overwrites the stored variables of the outer one. `recursion_overwrites_stored` (C68): a recursive sum, the code of every
    block is right, the program stores 3 and its assembly 2. Read only: a block without successors whose last instruction calls a
    function that does return gets no return tag (sub_block_generation.py:107-142), although the function expects one as its last
    parameter; a call with results directly before a join loses its results, because the stack of the join replaces
    `final_stack_elements` (hypothesis `callJoin` of C53).
18. Emission: `invalid` is not a terminal operation (parser/constants.py:4), so in a block with other instructions it is not the split
    instruction, it is removed as unused (`invalid_is_removed`), and the code runs on into whatever follows (`invalid_runs_on`, C54).
    Read only: a terminal block whose schedule is empty although it has several instructions makes the assertion "Falla" fail;
    `asm_from_op_info` writes every value in capitals, so names of libraries are changed, and keeps only the first literal;
    identifiers of immutables that look like decimal numbers are rewritten in hexadecimal and may collide ("10" and "a"); ids such as
    `SWAP01`, which the validator accepts, are written as they are.
19. Inlining: functions that call each other in a cycle are visited in the order of a Python set; if of two functions called once the
    caller comes first, the pass raises ValueError, since the caller has been removed (`inlining_pass_fails`, a live program, and `inlining_cycle_fails`, C57).
    Read only: a function whose only call is in itself is inlined into itself and removed; the assertion on the name of the callee is
    `startswith`, so that a call of `f` is accepted for a function `f2`; `functions.dot` is written to the current directory; the
    assignments (`assigment_dict`) of the inlined blocks are not merged; a block that is its own successor or blocks named like halves
    make the split fail; if no exit of the function returns, the second half stays as an unreachable block.
20. Reading documents: the results of a call are swapped if the name of the function has no underscore (`results_swapped`); a block that is its
    own successor is not among its predecessors (`self_loop_lost`); the entry of a function is ignored, the first block is taken
    (`entry_ignored`, C65). Built-in functions: the numbers for indirect subobjects start afresh in every function, so that different objects get
    the same number (`numbers_collide`), and a path whose first name has one character is taken for the first subobject (`short_name_wrong`, the
    code compares `find(".")` with 1 instead of -1, C66). Read only: `dataoffset` of the object itself is not 0 but such a number; blocks that
    cannot be reached keep their built-in functions, since the translation visits blocks in depth-first order.
21. The tags of the blocks and the information about calls are kept in dictionaries whose keys are the names of objects, for all objects of a
    contract together (`insert_jumps_tags_cfg`, `generate_function2information`). The same name can occur at several places: solc writes the object of
    a contract wherever code creates this contract, for example in the creation code and in the deployed code of another contract. Then the second
    object is split with the tags that the first one has left, and both are written with the tags of the last: in one copy the tag of a function is
    missing, in the other two blocks have the same tag (`same_name_breaks_tags`, C69).
22. Reordering the stack (`compute_permut_and_clean`): a swap with a value that is there too often leaves the mark of the position it
    disturbs, so that if a wanted value is there more often than it is wanted, an assertion may fail later (`permute_fails`, C71).
23. Three results are dropped in the greedy scheduler: of `check_dependencies` for the second try (line 1893, an `assert` in the first try, line 1870), so that a
    shorter schedule that violates a dependency would be preferred to a right one; of `clean_stack` within `compute_one_with_stack` (line 834), which changes
    only the dictionary; and `encoding_ext._final_stack += …` (line 1882) changes the output stack in the specification it was given. The schedule is rejected later (C74, `greedy_check`).
24. The loop nesting forest: for a header with several edges back to it only the largest loop is kept, while the order in which loops are considered is that of
    their smallest ones. So blocks of a loop may be missing in the forest, and an inner loop may be lost (`two_back_edges`, C77); values may then be stored in a
    deeper loop than necessary, but not lost (`declared_stored_once`). A block that jumps to itself and is in no other loop is an isolated node, on which the assertion
    in `variable2block_header` fails (`self_loop_exception`, exactly then: `header_exception`).
25. The plan of the greedy scheduler drops loads: a load is placed on the last level before its first successor, and only the stores of the next level are asked
    whether it has to be executed before them. If its first successor is another load, it is forgotten, and may be executed after a store that changes its value
    (`load_dropped`, C80). The assertion at the end of `greedy_from_json` then rejects the schedule, and the block gets none. The condition of line 173 compares
    a character of a name with a number, so it never holds.
26. Variables for constants are switched off: `decide_if_propagated` computes the sizes and returns `False`. The formula in the comment of the same line would be wrong
    for phi functions: a block that introduces a variable for a constant lets its own phi functions read it, before it is assigned (`written_rule_breaks_phi`, C81;
    `constants_keep_behaviour` says that this is the only obstacle). A phi function with more arguments than its block has entries loses arguments in this pass
    (`short_entries_lose_arguments`).
27. A reachable block from which no terminal block can be reached (`for {} {}`) makes the layout generation fail: the liveness analysis goes backwards from the terminal blocks, so such a
    block has no liveness information, but it is a node of the dominance tree, and `compute_variable_depth` raises `KeyError` (`endless_loop_fails`, exactly then:
    `analysis_iff`, C85).
28. The depth that orders the variables of a layout is not the distance of the nearest use: depths of successors are compared before the edge to them is added, so that a use two edges
    away can replace one that is one edge away (`not_nearest`, C84; by at most one with two successors: `depth_near`). This affects only the quality of layouts.
29. A contract that is asked for (`-c`) is looked for as a part of the text `file:contract`. With `Token.sol:Shop` before `Token.sol:Token`, asking for `Token` compiles `Shop`, and calls it
    `Token` (`file_name_wins`, `other_contract`, C90). For standard JSON the option is ignored (`asked_ignored`).
30. `_restore_path_for_compilation` reads an attribute that is assigned only if the command is a file in the working directory: with the default command `solc`, every compilation - also the
    call of the importer for each contract - ends with an `AttributeError` (`command_not_file`, C91). If solc cannot be run the working directory stays changed (`directory_lost`).
31. Contracts with the same name in two files of a standard-JSON input: only the last one is compiled (`same_name_lost`, C93).
32. With `--json-solc` the result `opcodes` is read, but only `evm.bytecode.object` is requested: `KeyError` for each contract (`opcodes_not_requested`, C93).
33. The reparation gives out the cell of a variable again after its last load in a branch of the dominance tree. If that load is in a loop and the variable comes from before the loop, the next iteration reads the other variable (`cell_reused_in_loop`, C95).
34. As in 17, from the reparation itself: the cells are fixed addresses also in functions that call themselves: the called activation overwrites the variables that the calling one has kept (`cell_overwritten_by_recursion`, C95).
35. The option `-d` accepts depths above 16; with 17 the reparation writes `DUP17`, which is not an EVM instruction, and the validator accepts such schedules (`depth_option_too_great`, C97).
36. `validate_liveness` accepts reports that omit a live variable, when the analysis omits it for the reason of C11 (`validated_wrong`, C98), and does not look below the direct subobjects (`validated_deep_wrong`).
37. The counter of `function_frequency` is created once per graph: the calls in an object are counted again for its later siblings (`table_wrong`, C99).
38. In the alternative scheduler (`greedy_new_version.py`, imported and not called at this commit), `max_solved` is not updated when an element leaves its place (`max_solved_wrong`), `get_count.update(var_elem)` counts the characters of the name (`gets_wrong`), and the results of an instruction are pushed in the other order than in the validator (`results_reversed`, C101).
39. `pop_unused_elements` of the alternative scheduler scans while `current_idx <= min(STACK_DEPTH, len(stack))`, so it reads `stack[len(stack)]` and raises `IndexError` on every stack of 1 to 16 elements (`pop_unused_raises`, C102).
40. Because `max_solved` is not updated when an element leaves its place (finding 38), `solve_permutation` can exchange with position -1 and fail its assertion on a stack of three elements (`permutation_raises`, C103).
41. `solve_permutation` loads a stored element only if no copy of it is in the stack (`last_misplaced_element not in cstate.stack`), so it fails its assertion on 18 elements with a repeated variable whose copy was stored to make room (`phase_raises`, C105).
42. `solve_permutation` tests `max_solved - 1 > STACK_DEPTH`, a position of the final stack, instead of its position in the stack, so no room is made when the stack has further elements, and an assertion fails if a wanted element is on top of 17 others (`phase_raises_surplus`, C105).
