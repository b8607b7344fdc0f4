{
 "claims": [
  {
   "property": "C01",
   "status": "proved",
   "theorems": [
    "Grey.SymExec.accepted_computes_target",
    "Grey.SymExec.run_deterministic"
   ],
   "note": "Side conditions the validator does not check are hypotheses (unique ids, no SWAP0, VGET only of stored variables); accepts_swap0/accepts_swap17 show acceptance does not imply encodability."
  },
  {
   "property": "C02",
   "status": "proved",
   "theorems": [
    "Grey.SymExec.accepted_respects_deps",
    "Grey.SymExec.violation_rejected",
    "Grey.SymExec.check_deps_exact"
   ],
   "note": ""
  },
  {
   "property": "C03",
   "status": "proved",
   "theorems": [
    "Grey.SymExec.accepted_effects_once",
    "Grey.SymExec.effect_not_once_rejected"
   ],
   "note": ""
  },
  {
   "property": "C04",
   "status": "proved",
   "theorems": [
    "Grey.Trace.reorderings_equivalent"
   ],
   "note": ""
  },
  {
   "property": "C05",
   "status": "proved",
   "theorems": [
    "Grey.Deps.overlap_iff_shared_byte",
    "Grey.Deps.no_overlap_disjoint",
    "Grey.Deps.interval_test_exact"
   ],
   "note": ""
  },
  {
   "property": "C06",
   "status": "proved",
   "theorems": [
    "Grey.Deps.memory_deps_cover"
   ],
   "note": "return/revert excluded: the analysis ignores them, they only occur last in a block"
  },
  {
   "property": "C07",
   "status": "partial",
   "theorems": [
    "Grey.Deps.storage_deps_cover_partial",
    "Grey.Deps.transient_deps_cover_partial",
    "Grey.Deps.storage_alias_missed",
    "Grey.Deps.create_vs_storage_missed"
   ],
   "note": "False of the code: x and an expression containing x are declared independent (storage_alias_missed); create is not ordered with storage. Proved for all remaining cases."
  },
  {
   "property": "C08",
   "status": "proved",
   "theorems": [
    "Grey.Deps.memory_deps_forward",
    "Grey.Deps.storage_deps_forward",
    "Grey.Deps.transient_deps_forward",
    "Grey.Deps.gas_deps_exact",
    "Grey.Deps.program_order_satisfies",
    "Grey.Sfs.simplify_keeps_order",
    "Grey.Sfs.simplify_minimal"
   ],
   "note": ""
  },
  {
   "property": "C09",
   "status": "proved",
   "theorems": [
    "Grey.Sfs.unused_iff_not_needed",
    "Grey.Sfs.effects_never_unused",
    "Grey.Sfs.removal_preserves"
   ],
   "note": ""
  },
  {
   "property": "C10",
   "status": "proved",
   "theorems": [
    "Grey.Opcodes.push_bytes_exact",
    "Grey.Opcodes.push_size",
    "Grey.Opcodes.push_bytes_diverges",
    "Grey.Opcodes.size_of_operation",
    "Grey.Opcodes.size_of_pseudo"
   ],
   "note": ""
  },
  {
   "property": "C11",
   "status": "partial",
   "theorems": [
    "Grey.Liveness.live_sound_iff",
    "Grey.Liveness.live_exact",
    "Grey.Liveness.live_sound_partial",
    "Grey.Liveness.live_sound_fails",
    "Grey.Liveness.keepG_all"
   ],
   "note": "The exact condition is proved: all live variables are found if and only if a variable that is live into a successor and assigned by a phi function of another one is an argument of some phi function for the block (live_sound_iff), for graphs on which the analysis stops and every block leads to a terminal one; live_exact says which variables are found otherwise. Refuted in general by a do-while loop (the exit set subtracts the phi results of all successors)."
  },
  {
   "property": "C12",
   "status": "proved",
   "theorems": [
    "Grey.Liveness.live_precise",
    "Grey.Liveness.live_precise_always"
   ],
   "note": "Final states and every intermediate state."
  },
  {
   "property": "C13",
   "status": "partial",
   "theorems": [
    "Grey.Liveness.stops_at_solution",
    "Grey.Liveness.visited_iff",
    "Grey.Liveness.terminates_partial",
    "Grey.Liveness.never_stops",
    "Grey.Liveness.spinG_never_stops",
    "Grey.Liveness.stops_iff"
   ],
   "note": "Solution and coverage proved; termination refuted in general (a cycle of blocks with phi functions never stops), and stops_iff says exactly when the iteration stops (C100)."
  },
  {
   "property": "C14",
   "status": "proved",
   "theorems": [
    "Grey.Layout.combine_order_exact",
    "Grey.Layout.merge_topmost_exact",
    "Grey.Layout.combine_junk_exact"
   ],
   "note": ""
  },
  {
   "property": "C15",
   "status": "proved",
   "theorems": [
    "Grey.Layout.junk_suffix_optimal"
   ],
   "note": ""
  },
  {
   "property": "C16",
   "status": "proved",
   "theorems": [
    "Grey.Layout.output_layout_exact",
    "Grey.Layout.output_layout_complete"
   ],
   "note": ""
  },
  {
   "property": "C17",
   "status": "proved",
   "theorems": [
    "Grey.Layout.join_stacks_agree",
    "Grey.Layout.join_stacks_agree_dominant",
    "Grey.Layout.join_keeps_live",
    "Grey.Layout.join_dominant_no_gaps"
   ],
   "note": "About one unification; the driver that calls it is a separate property."
  },
  {
   "property": "C18",
   "status": "partial",
   "theorems": [
    "Grey.Layout.substitution_keeps_deepest",
    "Grey.Layout.substitution_collides",
    "Grey.Layout.substitution_distinct_partial",
    "Grey.Layout.substitution_distinct_iff"
   ],
   "note": "Refuted in general: three copies of a variable give the same new name twice. Proved for stacks where a deepest occurrence separates any two renamed copies; substitution_distinct_iff says for exactly which stacks the names are different."
  },
  {
   "property": "C19",
   "status": "proved",
   "theorems": [
    "Grey.Cfg.renaming_consistent",
    "Grey.Cfg.renaming_injective",
    "Grey.Cfg.renaming_constants"
   ],
   "note": ""
  },
  {
   "property": "C20",
   "status": "proved",
   "theorems": [
    "Grey.Cfg.rename_preserves",
    "Grey.Cfg.renameComponent_preserves"
   ],
   "note": ""
  },
  {
   "property": "C21",
   "status": "proved",
   "theorems": [
    "Grey.Cfg.tags_good",
    "Grey.Cfg.tags_injective",
    "Grey.Cfg.request_stable",
    "Grey.Cfg.split_moves_tag",
    "Grey.Cfg.split_keeps_jump_tags",
    "Grey.Cfg.insertJumps_spec",
    "Grey.Cfg.tags_collide_without_fresh_names"
   ],
   "note": "Proviso (fresh names of halves) is in the statement; tags_collide_without_fresh_names shows it is needed."
  },
  {
   "property": "C22",
   "status": "proved",
   "theorems": [
    "Grey.Cfg.split_preserves",
    "Grey.Cfg.split_fails_on_self_loop",
    "Grey.Cfg.split_fails_on_double_edge"
   ],
   "note": "The last two are witnesses that the two provisos of the statement are needed (defects of the code)."
  },
  {
   "property": "C23",
   "status": "proved",
   "theorems": [
    "Grey.Cfg.merge_preserves",
    "Grey.Cfg.merge_fails_on_phi",
    "Grey.Cfg.merge_fails_on_back_edge",
    "Grey.Cfg.merge_loses_entry"
   ],
   "note": "The last three are witnesses that the provisos are needed (defects of the code: the selection of the pairs does not check them)."
  },
  {
   "property": "C24",
   "status": "proved",
   "theorems": [
    "Grey.Cfg.combine_preserves",
    "Grey.Cfg.unionFind_spec",
    "Grey.Cfg.combineRemove_preserves",
    "Grey.Cfg.combineRemove_fails_on_entry"
   ],
   "note": "unionFind_spec: the lookup returns the containing block and keeps the dictionary valid; combine_preserves: the whole pass."
  },
  {
   "property": "C25",
   "status": "proved",
   "theorems": [
    "Grey.Cfg.inlining_locates_call"
   ],
   "note": ""
  },
  {
   "property": "C26",
   "status": "proved",
   "theorems": [
    "Grey.Cfg.remove_unreachable",
    "Grey.Cfg.remove_coherent",
    "Grey.Cfg.removal_leaves_stale_predecessors",
    "Grey.Cfg.split_fails_after_removal"
   ],
   "note": "The last two show what happens without the proviso of remove_coherent."
  },
  {
   "property": "C27",
   "status": "proved",
   "theorems": [
    "Grey.Cfg.validator_exact",
    "Grey.Cfg.validator_ignores_entry"
   ],
   "note": "The second is the witness for the remark in the statement."
  },
  {
   "property": "C28",
   "status": "proved",
   "theorems": [
    "Grey.Repair.webs_exact",
    "Grey.Repair.find_invisible",
    "Grey.Repair.webs_counts"
   ],
   "note": "Union-find with path compression and union by rank; classes are exactly the connected components of the phi functions."
  },
  {
   "property": "C29",
   "status": "partial",
   "theorems": [
    "Grey.Repair.colours_distinct_partial",
    "Grey.Repair.exTree_placed",
    "Grey.Repair.colour_shared_at_join",
    "Grey.Repair.colour_shared_after_two_stores",
    "Grey.Repair.scan_fails_for_stack_argument"
   ],
   "note": "Proved for uses in the block and in dominated blocks, when every variable has one store placed before its loads. For uses in a block that is reached but not dominated, two live variables do share a colour (witness proved)."
  },
  {
   "property": "C30",
   "status": "proved",
   "theorems": [
    "Grey.Repair.slots_disjoint"
   ],
   "note": "Slots of one list are 32 bytes apart and slots of different lists do not overlap, for any number of lists."
  },
  {
   "property": "C31",
   "status": "partial",
   "theorems": [
    "Grey.Repair.phi_copies_parallel_partial",
    "Grey.Repair.dup_copy_wrong",
    "Grey.Repair.shared_argument_lost"
   ],
   "note": "Parallel assignment proved for arguments in memory with distinct arguments; the code violates the property for arguments on the stack (off by one) and for two phi functions with a common argument: witnesses proved."
  },
  {
   "property": "C32",
   "status": "partial",
   "theorems": [
    "Grey.Repair.reachability_exact",
    "Grey.Repair.insertions_consistent_partial",
    "Grey.Repair.getCount_exact",
    "Grey.Repair.store_before_call",
    "Grey.Repair.getCount_own_exact"
   ],
   "note": "Proved for blocks without a split instruction. For blocks that end with a function call the recorded position of a result is one past the end and the store is inserted before the call (witness proved)."
  },
  {
   "property": "C33",
   "status": "partial",
   "theorems": [
    "Grey.Output.placement_exact_partial",
    "Grey.Output.placement_entry_first",
    "Grey.Output.placement_duplicates",
    "Grey.Output.placement_two_falls",
    "Grey.Output.placement_chain",
    "Grey.Output.placement_entry_displaced"
   ],
   "note": "False of the code for some graphs (the four witnesses); proved under the assumptions Good, which the graphs of structured programs meet."
  },
  {
   "property": "C34",
   "status": "proved",
   "theorems": [
    "Grey.Output.disassembly_exact",
    "Grey.Output.disassembly_regions",
    "Grey.Output.constant_becomes_label",
    "Grey.Output.runtime_code_cut"
   ],
   "note": "The last two record the consequences for constants equal to a position and for runtime code containing INVALID."
  },
  {
   "property": "C35",
   "status": "proved",
   "theorems": [
    "Grey.Graphs.natural_loop_exact"
   ],
   "note": ""
  },
  {
   "property": "C36",
   "status": "proved",
   "theorems": [
    "Grey.Graphs.back_edges_break_cycles"
   ],
   "note": ""
  },
  {
   "property": "C37",
   "status": "proved",
   "theorems": [
    "Grey.Parser.split_exact",
    "Grey.Parser.split_values"
   ],
   "note": "for every decoder; witnesses show a brace inside a string, a stray closing brace and an apostrophe are mishandled (brace_in_string_lost, stray_brace_hides, apostrophe_changed)"
  },
  {
   "property": "C38",
   "status": "proved",
   "theorems": [
    "Grey.Cost.estimate_exact"
   ],
   "note": "the gas and bytes of one operation are fields of the instruction, get_push_number_hex is a parameter"
  },
  {
   "property": "C39",
   "status": "partial",
   "theorems": [
    "Grey.Opcodes.evm_arities",
    "Grey.Opcodes.dup_swap_opcodes",
    "Grey.Opcodes.evm_bytes_partial",
    "Grey.Opcodes.evm_bytes_distinct_partial",
    "Grey.Opcodes.opcode_rendering",
    "Grey.Opcodes.returndatasize_byte_wrong",
    "Grey.Opcodes.sized_push_byte_wrong",
    "Grey.Opcodes.no_other_dup_swap"
   ],
   "note": "False of the code for RETURNDATASIZE (byte of EXTCODECOPY) and for sized PUSHes."
  },
  {
   "property": "C40",
   "status": "partial",
   "theorems": [
    "Grey.Rules.rules_sound_partial",
    "Grey.Rules.transform_sound_partial",
    "Grey.Rules.div_self_wrong",
    "Grey.Rules.shift_by_zero_wrong",
    "Grey.Rules.shift_of_zero_wrong"
   ],
   "note": "false as stated: div(X,X), shl/shr by zero and of zero are rewritten wrongly (witnesses); all other rules of apply_transform are proved sound. The file does not compile and is not imported; apply_semantics_transformation is not modelled"
  },
  {
   "property": "C41",
   "status": "proved",
   "theorems": [
    "Grey.SymExec.accepted_refines_block"
   ],
   "note": "Non-vacuity: RefineExample.lean"
  },
  {
   "property": "C42",
   "status": "partial",
   "theorems": [
    "Grey.Sfs.removal_keeps_order_partial",
    "Grey.Sfs.removal_loses_order",
    "Grey.Sfs.kept_deps_of_kept"
   ],
   "note": "False of the code when an unused instruction lies between the two (removal_loses_order)."
  },
  {
   "property": "C43",
   "status": "proved",
   "theorems": [
    "Grey.Layout.terminal_layout",
    "Grey.Layout.prune_brings_into_reach"
   ],
   "note": ""
  },
  {
   "property": "C44",
   "status": "proved",
   "theorems": [
    "Grey.Layout.forget_exact"
   ],
   "note": ""
  },
  {
   "property": "C45",
   "status": "partial",
   "theorems": [
    "Grey.Repair.setFirstConstant_spec_partial",
    "Grey.Repair.setFirstConstant_changes_others",
    "Grey.Repair.setFirstConstant_wrong_instruction"
   ],
   "note": "Proved under the provisos in the theorem; the code changes every instruction equal to the first one: witnesses proved."
  },
  {
   "property": "C46",
   "status": "proved",
   "theorems": [
    "Grey.Repair.stores_dominate_loads"
   ],
   "note": ""
  },
  {
   "property": "C47",
   "status": "proved",
   "theorems": [
    "Grey.SymExec.accepts_exactly_right_schedules",
    "Grey.SymExec.classify_vget",
    "Grey.SymExec.classify_vset"
   ],
   "note": "SWAP0 excluded: see DESIGN.md."
  },
  {
   "property": "C48",
   "status": "proved",
   "theorems": [
    "Grey.Layout.combined_start_exact"
   ],
   "note": ""
  },
  {
   "property": "C49",
   "status": "proved",
   "theorems": [
    "Grey.Sfs.built_schedule_runs_block"
   ],
   "note": "For blocks whose operations are opcodes in the lower-case form of the compiler (function calls are split off before)."
  },
  {
   "property": "C50",
   "status": "partial",
   "theorems": [
    "Grey.Sfs.built_has_schedule_partial",
    "Grey.SymExec.available_has_schedule",
    "Grey.Sfs.unused_before_aliases",
    "Grey.Sfs.alias_chain",
    "Grey.Sfs.zero_ids_collide"
   ],
   "note": "False of the code for blocks that push the same thing twice (witnesses); proved for blocks without repeated pushes and without literal assignments carried over in the assignment dictionary."
  },
  {
   "property": "C51",
   "status": "partial",
   "theorems": [
    "Grey.Sfs.compiled_block_runs_partial",
    "Grey.Sfs.logs_reordered",
    "Grey.Sfs.return_size_reordered",
    "Grey.Sfs.alias_reordered"
   ],
   "note": "Proved for all blocks that the dependence analyses handle (structure Analysable lists what is excluded). The full statement is false: logs_reordered, return_size_reordered, alias_reordered (and create_vs_storage_missed, removal_loses_order) are accepted schedules or missing dependences that change the behaviour."
  },
  {
   "property": "C52",
   "status": "proved",
   "theorems": [
    "Grey.Layout.layouts_agree_on_edges",
    "Grey.Layout.layouts_cover",
    "Grey.Layout.layouts_fail_only_at_assertion",
    "Grey.Layout.layouts_exact_on_edges",
    "Grey.Layout.layout_of_start",
    "Grey.Layout.layout_begins_with_results",
    "Grey.Layout.layout_of_return",
    "Grey.Layout.dominant_fails_iff",
    "Grey.Layout.two_joins_disagree",
    "Grey.Layout.two_joins_missing_stack",
    "Grey.Layout.latch_exit_fails"
   ],
   "note": "Proviso OneJoin is in the statement; the violating cases are proved as witnesses."
  },
  {
   "property": "C53",
   "status": "partial",
   "theorems": [
    "Grey.Program.compiled_program_runs",
    "Grey.Program.compiled_program_only_runs",
    "Grey.Program.machine_deterministic",
    "Grey.Program.block_compiled_partial",
    "Grey.Program.generated_code_runs_partial",
    "Grey.Program.generated_code_only_runs_partial",
    "Grey.Program.exProg_runs"
   ],
   "note": "Simulation in both directions proved for every program whose blocks are compiled (BlockCompiled); the instantiation with built specifications and accepted schedules needs the provisos of C51 for every block. Missing: variables stored by one block and loaded by another, phi copies of stored variables, the flat placement of blocks (C33)."
  },
  {
   "property": "C54",
   "status": "partial",
   "theorems": [
    "Grey.Program.assembly_runs_partial",
    "Grey.Program.assembly_only_runs_partial",
    "Grey.Program.run_det",
    "Grey.Program.targets_unique",
    "Grey.Program.ex_code",
    "Grey.Program.invalid_is_removed",
    "Grey.Program.invalid_runs_on"
   ],
   "note": "Both directions proved for flat assembly under the provisos; partial because it builds on C53 (partial) and excludes variables stored in memory. Finding: a block that ends with `invalid` after other instructions loses it and runs into the following code."
  },
  {
   "property": "C55",
   "status": "proved",
   "theorems": [
    "Grey.Cfg.split_exits",
    "Grey.Cfg.merge_exits",
    "Grey.Cfg.combineRemove_exits",
    "Grey.Cfg.add_exits",
    "Grey.Cfg.empty_exits",
    "Grey.Cfg.overwrite_breaks_exits"
   ],
   "note": "For names that are new, as the property says; overwriting a block (the code only logs a warning) breaks the lists: overwrite_breaks_exits."
  },
  {
   "property": "C56",
   "status": "proved",
   "theorems": [
    "Grey.Inline.inlining_preserves"
   ],
   "note": "Verif/Inline/Lockstep.lean; hypotheses in the structure Site (Verif/Inline/Site.lean), met by the example in Verif/Inline/Example.lean"
  },
  {
   "property": "C57",
   "status": "proved",
   "theorems": [
    "Grey.Inline.inlining_pass_preserves",
    "Grey.Inline.inlining_pass_ordered",
    "Grey.Inline.topological_callees_first",
    "Grey.Inline.topological_order_exists",
    "Grey.Inline.inlining_pass_fails",
    "Grey.Inline.inlining_cycle_fails"
   ],
   "note": "inlining_pass_preserves is for any order with callees first; topological_callees_first derives that from what networkx documents about condensation and topological_sort, for programs without a cycle of calls among functions called once; inlining_cycle_fails shows an order that the code may compute for mutually recursive functions, on which the pass raises an exception"
  },
  {
   "property": "C58",
   "status": "proved",
   "theorems": [
    "Grey.Prep.combining_preserves",
    "Grey.Prep.merge_sameRuns",
    "Grey.Prep.remove_sameRuns",
    "Grey.Prep.combining_fails_on_run"
   ],
   "note": "For objects whose components are coherent and tidy (nothing leads to the entry, blocks with phi functions are joins, no loop is a run of blocks). combining_fails_on_run: without the last condition the merged program gets stuck."
  },
  {
   "property": "C59",
   "status": "proved",
   "theorems": [
    "Grey.Prep.renaming_preserves"
   ],
   "note": "for one object; subobjects are handled separately by the code"
  },
  {
   "property": "C60",
   "status": "proved",
   "theorems": [
    "Grey.Prep.preprocessing_preserves",
    "Grey.Prep.tidy_after"
   ],
   "note": "for one object; the order of visiting functions is a parameter"
  },
  {
   "property": "C61",
   "status": "proved",
   "theorems": [
    "Grey.Lower.lowering_preserves_program",
    "Grey.Lower.lowering_calls_last"
   ],
   "note": "for one object; the conditions on the object are spelled out in Lowerable (Verif/Lower/Spec.lean); a decision procedure for them is proved sound in Verif/Lower/Check.lean"
  },
  {
   "property": "C62",
   "status": "proved",
   "theorems": [
    "Grey.Lower.lowering_tags"
   ],
   "note": "for one object"
  },
  {
   "property": "C63",
   "status": "proved",
   "theorems": [
    "Grey.Front.front_end_preserves",
    "Grey.Front.preprocessed_lowerable"
   ],
   "note": "for one object; what is assumed of the parsed object is spelled out in Compilable (Verif/Front/Spec.lean); a checker for it is proved sound in Verif/Front/Check.lean. The last step, insert_variables_for_constants_propagated, introduces no constants and is not modelled"
  },
  {
   "property": "C64",
   "status": "partial",
   "theorems": [
    "Grey.Whole.whole_compiler_partial",
    "Grey.Whole.whole_compiler_analysed_partial",
    "Grey.Whole.wh_analysed"
   ],
   "note": "Proved from the parsed object to the assembly under the conditions collected in Whole.Checked; with the analyses that the compiler computes (C85) under those of Whole.CheckedLayouts. Missing: the conditions on the later phases (OneJoin, Placeable, acceptance of the schedules) are checked per program, not derived; schedules that store variables in memory are excluded by it. wh_analysed: an object that meets all hypotheses with computed analyses."
  },
  {
   "property": "C65",
   "status": "partial",
   "theorems": [
    "Grey.Parser.parsed_runs_partial",
    "Grey.Parser.parsed_graph",
    "Grey.Parser.parsed_coherent",
    "Grey.Parser.results_swapped",
    "Grey.Parser.self_loop_lost",
    "Grey.Parser.entry_ignored"
   ],
   "note": "Partial: results of instructions with several results keep their order only if the name contains an underscore (results_swapped proves that they are swapped otherwise). Example: exDoc."
  },
  {
   "property": "C66",
   "status": "proved",
   "theorems": [
    "Grey.Parser.references_kept_apart",
    "Grey.Parser.translation_local",
    "Grey.Parser.numbers_collide",
    "Grey.Parser.short_name_wrong"
   ],
   "note": "The provisos are needed: numbers_collide (two functions), short_name_wrong (dot as second character). Example beside the theorems."
  },
  {
   "property": "C67",
   "status": "partial",
   "theorems": [
    "Grey.Whole.document_to_assembly_partial",
    "Grey.Whole.document_analysed_partial",
    "Grey.Whole.wh_document"
   ],
   "note": "C65 and C64 in a row; partial as they are. document_analysed_partial: with the analyses that the compiler computes. wh_document: a document that meets all hypotheses."
  },
  {
   "property": "C68",
   "status": "partial",
   "theorems": [
    "Grey.Stored.stored_assembly_runs_partial",
    "Grey.Stored.stored_assembly_only_runs_partial",
    "Grey.Stored.copyOps_texts",
    "Grey.Stored.evm_memory",
    "Grey.Stored.recursion_overwrites_stored"
   ],
   "note": "Both directions, for places of the variables that are right (PlacesOk, BlockStored: a check over the blocks, given what is known before and after every block). Missing: that the places the reparation chooses are always right; they are not (findings 4, 5, 11, 17: C29, C31, C32). The program is the one after set_first_constant. evm_memory: a memory of bytes meets the assumptions about loads and stores. recursion_overwrites_stored: without the proviso about calls the property is false, a recursive function whose variables are kept in memory."
  },
  {
   "property": "C69",
   "status": "partial",
   "theorems": [
    "Grey.Nested.documents_to_assembly_partial",
    "Grey.Nested.frontDocs_eq",
    "Grey.Nested.same_name_breaks_tags"
   ],
   "note": "Partial as C67 (Checked is assumed, and functions whose results are swapped are excluded); in addition the names of all objects have to be distinct, and same_name_breaks_tags shows that this is needed: identical subobjects in two places, which solc writes, get wrong tags."
  },
  {
   "property": "C70",
   "status": "proved",
   "theorems": [
    "Grey.Nested.reference_finds_subobject"
   ],
   "note": ""
  },
  {
   "property": "C71",
   "status": "proved",
   "theorems": [
    "Grey.Permute.permute_correct",
    "Grey.Permute.permute_fails"
   ],
   "note": "Whenever reordering ends; that it ends is a separate property. permute_fails: an input with surplus copies on which an assertion of the code fails."
  },
  {
   "property": "C72",
   "status": "proved",
   "theorems": [
    "Grey.Permute.drop_run",
    "Grey.Permute.drop_check",
    "Grey.Permute.drop_length",
    "Grey.Permute.drop_clean"
   ],
   "note": "Every sequence of instructions."
  },
  {
   "property": "C73",
   "status": "proved",
   "theorems": [
    "Grey.Permute.permute_succeeds",
    "Grey.Permute.permute_total",
    "Grey.Permute.permute_fails"
   ],
   "note": "Ends without exception, by a well-founded measure on states; permute_fails shows that the condition on the numbers of values cannot be dropped."
  },
  {
   "property": "C74",
   "status": "proved",
   "theorems": [
    "Grey.Greedy.greedy_reaches_target",
    "Grey.Greedy.greedy_check",
    "Grey.Greedy.greedy_within_reach"
   ],
   "note": "Partial correctness for arbitrary heuristics and plans (parameters); that the scheduler returns at all is not claimed. The transient reversal of an argument list while arguments are computed is not modelled."
  },
  {
   "property": "C75",
   "status": "partial",
   "theorems": [
    "Grey.Whole.whole_compiler_stored_partial",
    "Grey.Whole.document_to_assembly_stored_partial",
    "Grey.Whole.document_stored_analysed_partial",
    "Grey.Whole.wh_stored_document"
   ],
   "note": "C68 at the end of C64 and C67. Partial as these are: the checks of the later phases (CheckedStored, or CheckedLayoutsStored with computed analyses) are assumed; the places that the reparation chooses are not always right (C29, C31, C32, finding 17). wh_stored_document: a document that meets all hypotheses."
  },
  {
   "property": "C76",
   "status": "proved",
   "theorems": [
    "Grey.Repair.phi_repair_exact",
    "Grey.Repair.unreachable_exact",
    "Grey.Repair.phi_repair_succeeds"
   ],
   "note": "Loads are counted at least once; a phi function that is pushed twice is processed twice, so the counter may be higher than the number of copies (only whether it is positive, and sums over the same counters, are used afterwards). That computed variables are within reach in their own block follows from reachability_exact (C32)."
  },
  {
   "property": "C77",
   "status": "proved",
   "theorems": [
    "Grey.Graphs.forest_exact",
    "Grey.Repair.declared_stored_once",
    "Grey.Repair.own_block",
    "Grey.Repair.header_exception",
    "Grey.Repair.self_loop_exception",
    "Grey.Graphs.two_back_edges"
   ],
   "note": ""
  },
  {
   "property": "C78",
   "status": "proved",
   "theorems": [
    "Grey.Repair.cells_suffice",
    "Grey.Repair.greedy_cells_suffice",
    "Grey.Repair.colours_below_stores",
    "Grey.Repair.scan_succeeds",
    "Grey.Repair.inserted_total",
    "Grey.Greedy.greedy_stores"
   ],
   "note": "that every value is stored before it is read is a hypothesis of the last part (finding 4: not always the case for arguments of phi functions)"
  },
  {
   "property": "C79",
   "status": "proved",
   "theorems": [
    "Grey.Greedy.writes_performed"
   ],
   "note": "isEffect: instructions of the block without a result; plan = what target returns (see Greedy/Order.lean for its order)."
  },
  {
   "property": "C80",
   "status": "proved",
   "theorems": [
    "Grey.Greedy.effects_once_in_order",
    "Grey.Greedy.plan_writes",
    "Grey.Greedy.plan_exists",
    "Grey.Greedy.load_dropped"
   ],
   "note": "Which value needs which is a parameter (Ask); load_dropped is the witness for what does not hold of loads."
  },
  {
   "property": "C81",
   "status": "proved",
   "theorems": [
    "Grey.Consts.constants_keep_behaviour",
    "Grey.Consts.shipped_changes_nothing",
    "Grey.Consts.constants_succeed",
    "Grey.Consts.assignments_are_pushes",
    "Grey.Consts.written_rule_breaks_phi",
    "Grey.Consts.short_entries_lose_arguments"
   ],
   "note": "The dominance tree is an input: blocks are only below blocks that dominate them. written_rule_breaks_phi and short_entries_lose_arguments are witnesses for what the provisos exclude."
  },
  {
   "property": "C82",
   "status": "proved",
   "theorems": [
    "Grey.RepairAll.only_instructions",
    "Grey.RepairAll.repair_keeps_instructions",
    "Grey.RepairAll.object_cells",
    "Grey.RepairAll.repairOne_repairs",
    "Grey.RepairAll.exProgram_repaired"
   ],
   "note": "For every repair of single block lists allowed by the models of C26, C30, C78 (relation `Repaired`), whose executable instance `repairOne` is one. All blocks of a list are assumed to be in its dominance tree."
  },
  {
   "property": "C83",
   "status": "proved",
   "theorems": [
    "Grey.Graphs.dominance_paths",
    "Grey.Graphs.dominance_levels",
    "Grey.Graphs.Dominates.antisymm",
    "Grey.Graphs.Dominates.total",
    "Grey.Graphs.idom_exists"
   ],
   "note": "networkx.immediate_dominators is modelled by its documentation (the immediate dominator is computed from the definition), not by its algorithm."
  },
  {
   "property": "C84",
   "status": "proved",
   "theorems": [
    "Grey.Layout.depths_realised",
    "Grey.Layout.depth_near",
    "Grey.Layout.not_nearest"
   ],
   "note": ""
  },
  {
   "property": "C85",
   "status": "proved",
   "theorems": [
    "Grey.Lower.analysis_iff",
    "Grey.Lower.analysis_live",
    "Grey.Lower.dead_at_end",
    "Grey.Lower.analysis_dominance",
    "Grey.Lower.analysis_depth",
    "Grey.Lower.analysis_loops",
    "Grey.Lower.analysis_navigable",
    "Grey.Lower.live_wf",
    "Grey.Lower.standard_ok",
    "Grey.Lower.endless_loop_fails",
    "Grey.Whole.front_end_analyses",
    "Grey.Whole.front_end_layouts"
   ],
   "note": "The orders of dictionaries and of the topological sort are parameters. That the liveness analysis ends is C11 (partial), so it is a hypothesis here."
  },
  {
   "property": "C86",
   "status": "partial",
   "theorems": [
    "Grey.Whole.compiled_like_source_partial",
    "Grey.Whole.compiled_like_document_partial",
    "Grey.Whole.scheduled_like_source_partial",
    "Grey.Whole.scheduled_like_document_partial",
    "Grey.Whole.stored_like_source_partial",
    "Grey.Whole.stored_like_document_partial"
   ],
   "note": "Every schedule is allowed; what the compiler relies on without checking it is assumed (Unchecked, in Verif/Whole/PipelineSpec.lean). With the ids of the modelled scheduler (scheduled_…) nothing is assumed about ids; the result is none if variables have to be stored. With stored variables (stored_…) the choices of the reparation are parameters, and their rightness is assumed (UnensuredStored). Whole.wh_compiled, Whole.wh_scheduled and Whole.wh_stored_scheduled are instances."
  },
  {
   "property": "C87",
   "status": "proved",
   "theorems": [
    "Grey.Layout.layout_names",
    "Grey.Layout.mem_substDuplicates"
   ],
   "note": ""
  },
  {
   "property": "C88",
   "status": "proved",
   "theorems": [
    "Grey.Program.on_stack_assigned",
    "Grey.Program.own_not_on_stack",
    "Grey.Whole.no_tag_between_blocks",
    "Grey.Sfs.reached_from",
    "Grey.Whole.starts_without",
    "Grey.Stored.stored_on_stack_assigned",
    "Grey.Stored.stored_in_cell_assigned",
    "Grey.Kept.unassigned_not_stored"
   ],
   "note": "Example: Verif/Program/AssignedExample.lean (a variable that one of two ways assigns, and a result of a call); Verif/Whole/PipelineExample.lean meets the hypotheses of no_tag_between_blocks and starts_without, Verif/Whole/StoredPipelineExample.lean those of the last two. Components as in C52: no block precedes two joins."
  },
  {
   "property": "C89",
   "status": "proved",
   "theorems": [
    "Grey.Greedy.greedy_ids",
    "Grey.Whole.scheduled_plain",
    "Grey.Sfs.built_plain"
   ],
   "note": "Example beside greedy_ids; Whole.wh_scheduled uses all three."
  },
  {
   "property": "C90",
   "status": "partial",
   "theorems": [
    "Grey.Solc.split_printed",
    "Grey.Solc.all_contracts",
    "Grey.Solc.asked_exact",
    "Grey.Solc.asked_contract_partial",
    "Grey.Solc.other_contract",
    "Grey.Solc.file_name_wins"
   ],
   "note": "Taking the output apart and the case without a contract being asked for are proved in full. A contract is looked for as a part of the text file:contract, so another contract may be found first (other_contract, file_name_wins); proved if the name is not contained in the full name of an earlier contract. asked_exact says which contract is found in all cases."
  },
  {
   "property": "C91",
   "status": "partial",
   "theorems": [
    "Grey.Solc.compiled_in_folder_partial",
    "Grey.Solc.compiled_each_partial",
    "Grey.Solc.command_not_file",
    "Grey.Solc.directory_lost",
    "Grey.Solc.default_command_fails"
   ],
   "note": "Proved if the command is a file seen from the working directory and solc runs. If the command is not a file (solc, the default) every compilation ends with an exception (command_not_file); if solc cannot be run the directory is not restored (directory_lost)."
  },
  {
   "property": "C92",
   "status": "proved",
   "theorems": [
    "Grey.Solc.importer_files",
    "Grey.Solc.input_metadata",
    "Grey.Solc.no_metadata",
    "Grey.Solc.input_settings"
   ],
   "note": "The metadata settings must be an object if there are any: input_metadata and no_metadata show that this is so in both ways in which main uses it. Example beside the theorems."
  },
  {
   "property": "C93",
   "status": "partial",
   "theorems": [
    "Grey.Solc.json_exact",
    "Grey.Solc.json_all_partial",
    "Grey.Solc.main_results",
    "Grey.Solc.same_name_lost",
    "Grey.Solc.asked_ignored",
    "Grey.Solc.opcodes_not_requested"
   ],
   "note": "main_results is the full statement from the dictionary of graphs on, for the bytecode. Contracts of the same name in two files: only the last is compiled (same_name_lost), so json_all_partial assumes different names. For the opcodes main always ends with an exception, since only the bytecode is requested (opcodes_not_requested; that solc returns only what is requested is part of the model of solc)."
  },
  {
   "property": "C94",
   "status": "partial",
   "theorems": [
    "Grey.Nested.contract_compiled_partial",
    "Grey.Nested.planOne_alone",
    "Grey.Nested.nest_compiled",
    "Grey.Nested.nest_compiled_stored",
    "Grey.Nested.contract_placed_partial"
   ],
   "note": "The compiler as one function on documents with subobjects (compileDocs); every object as in C86 (scheduled_like_document, stored_like_document). Partial as C86: what the compiler does not ensure is assumed for every object; names of objects are distinct (needed: same_name_breaks_tags, C69). nest_compiled and nest_compiled_stored: documents that meet all hypotheses."
  },
  {
   "property": "C95",
   "status": "partial",
   "theorems": [
    "Grey.Whole.placed_like_source_partial",
    "Grey.Whole.placed_like_document_partial",
    "Grey.Kept.reads_stored",
    "Grey.Kept.places_right",
    "Grey.Kept.block_right",
    "Grey.Kept.edge_kept",
    "Grey.RepairAll.cell_reused_in_loop",
    "Grey.RepairAll.cell_overwritten_by_recursion",
    "Grey.Nested.contract_placed_partial",
    "Grey.Kept.arranged_of_tree",
    "Grey.Kept.DominanceTree.above",
    "Grey.Kept.stored_then_constant",
    "Grey.Kept.domTree_right",
    "Grey.Kept.cells_of_driver",
    "Grey.Kept.cells_reserved",
    "Grey.Kept.stores_once_placed",
    "Grey.Kept.chosen_reachable"
   ],
   "note": "Proved: the stores placed by the traversal, the inserted duplicates and the cells of the scan make every load read the value of its variable, for every path, number of iterations and calls; the tree is the one that the code builds from the immediate dominators (domTree_right), from which its shape is derived, the cells are those of the scan from the base addresses that the repair gives to the components one after the other (cells_of_driver), every variable is stored once (stores_once_placed), and that nothing is assigned after it has been stored from single assignment form (arranged_of_tree); an object with 17 live variables meets all hypotheses (de_placed). Missing because the code does not ensure it: the schedules themselves store no variable twice and none that the traversal stores, a cell released inside a loop is not needed when the loop comes back, no variable is kept in a static cell across a call that comes back to its component, no store in a block that ends in a call, no phi function writes a cell (UnensuredPlaced, Kept.Uses). The code does violate two of them: cell_reused_in_loop, cell_overwritten_by_recursion (findings 33 and 34)."
  },
  {
   "property": "C96",
   "status": "partial",
   "theorems": [
    "Grey.Nested.command_right_partial"
   ],
   "note": "Proved for the whole command from the answer of solc on; an answer with two contracts with subobjects, one of them with variables in memory, meets the hypotheses (cm_right). Missing, because violated by the code or not ensured by it: contracts with the same name (same_name_lost), and what is missing in C94 and C95."
  },
  {
   "property": "C97",
   "status": "partial",
   "theorems": [
    "Grey.Stored.accepted_iff",
    "Grey.Stored.written_within_depth",
    "Grey.Stored.duplications_exist_partial",
    "Grey.Stored.depth_option_too_great"
   ],
   "note": "Proved for every accepted depth: duplications within the depth; for depths up to 16 they are EVM instructions. Missing because the code violates it: the command line accepts depths above 16 (depth_option_too_great, finding 35). Blocks that end with a call are left out, as in C32."
  },
  {
   "property": "C98",
   "status": "partial",
   "theorems": [
    "Grey.Liveness.validated_precise",
    "Grey.Liveness.validated_iff_right_partial",
    "Grey.Liveness.validated_wrong",
    "Grey.Liveness.validateLiveness_iff",
    "Grey.Liveness.validated_deep_wrong",
    "Grey.Liveness.loop_validated"
   ],
   "note": "Missing because false: with a phi function in a sibling the analysis misses live variables and the validation accepts reports that miss them too (validated_wrong); reports of objects two levels down are not compared (validated_deep_wrong); finding 36. The call of the function in preprocessing is commented out."
  },
  {
   "property": "C99",
   "status": "proved",
   "theorems": [
    "Grey.Frequency.table_rows",
    "Grey.Frequency.table_right_iff",
    "Grey.Frequency.table_wrong"
   ],
   "note": "The statement is the exact condition under which the table is right; table_wrong shows a contract that creates another one, for which it is not (finding 37)."
  },
  {
   "property": "C100",
   "status": "proved",
   "theorems": [
    "Grey.Liveness.stops_iff",
    "Grey.Liveness.keepG_quiet",
    "Grey.Liveness.spinG_restless"
   ],
   "note": "Exact: both directions, the graph and the terminal blocks arbitrary."
  },
  {
   "property": "C101",
   "status": "partial",
   "theorems": [
    "Grey.Greedy.Alternative.state_right",
    "Grey.Greedy.Alternative.copies_kept",
    "Grey.Greedy.Alternative.copies_done",
    "Grey.Greedy.Alternative.schedule_executes_partial",
    "Grey.Greedy.Alternative.gets_right_iff",
    "Grey.Greedy.Alternative.max_solved_wrong",
    "Grey.Greedy.Alternative.gets_wrong",
    "Grey.Greedy.Alternative.results_reversed"
   ],
   "note": "Proved: the counts, the unsolved positions, the copies. The code violates the rest: the deepest misplaced position is not updated when an element is moved away (max_solved_wrong; it is misplaced, but not the deepest), the counter of loads counts characters (gets_right_iff, exact), and several results are pushed in the other order (results_reversed; schedule_executes_partial asks for the same results in both orders, as with at most one)."
  },
  {
   "property": "C102",
   "status": "partial",
   "theorems": [
    "Grey.Greedy.Alternative.pop_unused_stops",
    "Grey.Greedy.Alternative.pop_unused_removes",
    "Grey.Greedy.Alternative.pop_unused_left",
    "Grey.Greedy.Alternative.pop_unused_returns_partial",
    "Grey.Greedy.Alternative.pop_unused_plays",
    "Grey.Greedy.Alternative.pop_unused_executes",
    "Grey.Greedy.Alternative.pop_unused_raises",
    "Grey.Greedy.Alternative.twenty_removed",
    "Grey.Greedy.Alternative.three_raise"
   ],
   "note": "The code violates the part on exceptions: the loop condition admits the index len(stack), so the removal raises IndexError on every stack of 1 to 16 elements (pop_unused_raises), and whenever it returns more than 16 elements are left (pop_unused_left). It returns if more than 16 elements are left when everything to be removed is taken away (pop_unused_returns_partial). Termination, what is removed and the agreement with the validator are proved without proviso (the last for names that do not contain SWAP or DUP)."
  },
  {
   "property": "C103",
   "status": "partial",
   "theorems": [
    "Grey.Greedy.Alternative.permutation_right",
    "Grey.Greedy.Alternative.permutation_solved",
    "Grey.Greedy.Alternative.permutation_solved_later_partial",
    "Grey.Greedy.Alternative.permutation_example",
    "Grey.Greedy.Alternative.permutation_raises"
   ],
   "note": "Proved in full if the phase starts from a fresh state (permutation_solved). From a state that earlier steps have reached it is proved if the record of the deepest misplaced position is not empty while something is misplaced (permutation_solved_later_partial); without that proviso the code violates the property, because the record is not updated when an element leaves its place (permutation_raises). The execution by the validator is for names that do not contain SWAP or DUP. The step before the loop is C105."
  },
  {
   "property": "C104",
   "status": "proved",
   "theorems": [
    "Grey.Greedy.Alternative.surplus_solved",
    "Grey.Greedy.Alternative.surplus_example"
   ],
   "note": "From a fresh state; C103 says what can go wrong after earlier steps. The execution by the validator is for names that do not contain SWAP or DUP. With at most 17 elements the step before the loop is not taken."
  },
  {
   "property": "C105",
   "status": "partial",
   "theorems": [
    "Grey.Greedy.Alternative.reach_within",
    "Grey.Greedy.Alternative.room_made_partial",
    "Grey.Greedy.Alternative.reach_returns_partial",
    "Grey.Greedy.Alternative.stored_can_be_loaded",
    "Grey.Greedy.Alternative.phase_right",
    "Grey.Greedy.Alternative.phase_example",
    "Grey.Greedy.Alternative.phase_raises",
    "Grey.Greedy.Alternative.phase_raises_surplus"
   ],
   "note": "The code violates the part on exceptions: a stored element is not loaded while another copy of it is in the stack, so an assertion fails on a stack of 18 elements (phase_raises); the test before the loop takes a position of the final stack for one of the stack, so no room is made if there are further elements (phase_raises_surplus); and the removal of unused elements raises IndexError if at most 16 are left (C102). Proved for all stacks: whenever room has been made the position is within reach, what is stored can be loaded, and whenever the phase returns the result is right (names without SWAP or DUP). That the phase ends is proved for at most 17 elements only (C103, C104)."
  }
 ]
}
