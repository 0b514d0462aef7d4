{
 "claims": [
  {
   "property": "C01",
   "status": "proved",
   "theorems": [
    "Verif.Heap.C01_gc_keeps_reachable"
   ],
   "note": "All heap graphs produced by any history of API calls, any extra roots."
  },
  {
   "property": "C02",
   "status": "proved",
   "theorems": [
    "Verif.Heap.C02_gc_frees_exactly_unreachable"
   ],
   "note": "Exact characterisation of survivors, free list, and byte counter."
  },
  {
   "property": "C03",
   "status": "proved",
   "theorems": [
    "Verif.Heap.C03_stale_handle_never_revives",
    "Verif.Heap.C03_generation_wraps"
   ],
   "note": "The bound is stated on collections (each frees a slot at most once); the second theorem shows the 2^32 bound is sharp (aliasing witness)."
  },
  {
   "property": "C04",
   "status": "proved",
   "theorems": [
    "Verif.Heap.C04_accounting_and_limit",
    "Verif.Heap.C04_allocation_keeps_cells"
   ],
   "note": "For every limit below usize::MAX."
  },
  {
   "property": "C05",
   "status": "proved",
   "theorems": [
    "Verif.Heap.C05_persistent_roots_are_a_map",
    "Verif.Heap.C05_persistent_roots_are_live"
   ],
   "note": "Refinement to a finite map."
  },
  {
   "property": "C06",
   "status": "proved",
   "theorems": [
    "Verif.Heap.C06_scope_restores_roots",
    "Verif.Heap.C06_pushed_values_survive"
   ],
   "note": "All well-bracketed programs with early returns."
  },
  {
   "property": "C07",
   "status": "proved",
   "theorems": [
    "Verif.Heap.C07_symbol_for_stable_and_injective"
   ],
   "note": "Any two points of any legal history."
  },
  {
   "property": "C08",
   "status": "proved",
   "theorems": [
    "Verif.Heap.C08_prototype_chains_end",
    "Verif.Heap.C08_cycle_is_refused"
   ],
   "note": ""
  },
  {
   "property": "C09",
   "status": "proved",
   "theorems": [
    "Verif.Objects.C09_define"
   ],
   "note": "Ordinary objects; arrays are C11. Errors are exactly mixed descriptors and exhausted memory, both without effect."
  },
  {
   "property": "C10",
   "status": "proved",
   "theorems": [
    "Verif.Objects.C10_frozen"
   ],
   "note": "Any two points of any history, allocation failures included."
  },
  {
   "property": "C11",
   "status": "proved",
   "theorems": [
    "Verif.Objects.C11_length",
    "Verif.Objects.C11_length_ample",
    "Verif.Objects.C11_shrink",
    "Verif.Objects.C11_out_of_memory_violated"
   ],
   "note": "Holds for histories in which no length write ran out of memory; the last theorem shows that condition is needed (the code leaves elements above the length)."
  },
  {
   "property": "C12",
   "status": "proved",
   "theorems": [
    "Verif.Objects.C12_complete",
    "Verif.Objects.C12_order",
    "Verif.Objects.C12_creation_order",
    "Verif.Objects.C12_duplicate_initial_keys_violated"
   ],
   "note": "Needs initial property lists without duplicate keys; the last theorem shows the code does not check this."
  },
  {
   "property": "C13",
   "status": "proved",
   "theorems": [
    "Verif.Objects.C13_array_index",
    "Verif.Objects.C13_string_to_array_index"
   ],
   "note": ""
  },
  {
   "property": "C14",
   "status": "proved",
   "theorems": [
    "Verif.Env.C14_alloc",
    "Verif.Env.C14_bindings",
    "Verif.Env.C14_tdz",
    "Verif.Env.C14_initialise_once",
    "Verif.Env.C14_last_write",
    "Verif.Env.C14_const",
    "Verif.Env.C14_stable"
   ],
   "note": "Declarative environments, any history, allocation failures included."
  },
  {
   "property": "C15",
   "status": "proved",
   "theorems": [
    "Verif.Jobs.C15_checkpoint",
    "Verif.Jobs.C15_fifo",
    "Verif.Jobs.C15_nested",
    "Verif.Jobs.C15_returns",
    "Verif.Jobs.C15_fair",
    "Verif.Jobs.C15_teardown"
   ],
   "note": "MicrotaskQueue. The VM's own checkpoint is C52."
  },
  {
   "property": "C16",
   "status": "proved",
   "theorems": [
    "Verif.Promises.C16_settles_once",
    "Verif.Promises.C16_state",
    "Verif.Promises.C16_first_call_wins",
    "Verif.Promises.C16_first_call_settles",
    "Verif.Promises.C16_one_authority",
    "Verif.Promises.C16_reactions",
    "Verif.Promises.C16_out_of_memory_violated",
    "Verif.Promises.C16_raw_settle_violated"
   ],
   "note": "Every reaction gets its job if memory never ran out; the last two theorems show that condition, and avoiding the raw Heap::promise_fulfill/promise_reject, are needed."
  },
  {
   "property": "C17",
   "status": "proved",
   "theorems": [
    "Verif.Promises.C17_rejected",
    "Verif.Promises.C17_drain",
    "Verif.Promises.C17_drain_sound",
    "Verif.Promises.C17_history",
    "Verif.Promises.C17_rejectionhandled_when",
    "Verif.Promises.C17_dispatch",
    "Verif.Promises.C17_out_of_memory_violated"
   ],
   "note": "Completeness of the drained batch if memory never ran out (the last theorem shows the condition is needed)."
  },
  {
   "property": "C18",
   "status": "proved",
   "theorems": [
    "Verif.Values.C18_add_exact",
    "Verif.Values.C18_mul_exact",
    "Verif.Values.C18_negate_exact",
    "Verif.Values.C18_canonical",
    "Verif.Values.C18_decimal",
    "Verif.Values.C18_literal",
    "Verif.Values.C18_programs"
   ],
   "note": "Exact or a range error; zero is canonical after any program of operations."
  },
  {
   "property": "C19",
   "status": "proved",
   "theorems": [
    "Verif.Values.C19_order",
    "Verif.Values.C19_total_order",
    "Verif.Values.C19_equality",
    "Verif.Values.C19_host_order"
   ],
   "note": ""
  },
  {
   "property": "C20",
   "status": "proved",
   "theorems": [
    "Verif.Values.C20_position_exists",
    "Verif.Values.C20_line_col"
   ],
   "note": ""
  },
  {
   "property": "C21",
   "status": "proved",
   "theorems": [
    "Verif.Modules.C21_equal_iff",
    "Verif.Modules.C21_equivalence",
    "Verif.Modules.C21_order_irrelevant",
    "Verif.Modules.C21_canonical",
    "Verif.Modules.C21_duplicates_violated"
   ],
   "note": "For requests without repeated attributes, as the property says; the last theorem shows the condition is needed."
  },
  {
   "property": "C22",
   "status": "proved",
   "theorems": [
    "Verif.Modules.C22_resolve_exact",
    "Verif.Modules.C22_binding_exists",
    "Verif.Modules.C22_default_not_through_star"
   ],
   "note": "Graphs in which every loaded module id is in the graph (the code panics otherwise)."
  },
  {
   "property": "C23",
   "status": "proved",
   "theorems": [
    "Verif.Modules.C23_names_exact"
   ],
   "note": "Same graphs."
  },
  {
   "property": "C24",
   "status": "proved",
   "theorems": [
    "Verif.Budget.C24_ticks",
    "Verif.Budget.C24_fuel",
    "Verif.Budget.C24_unlimited",
    "Verif.Budget.C24_interrupt",
    "Verif.Budget.C24_deadline",
    "Verif.Budget.C24_no_early_deadline",
    "Verif.Budget.C24_nested",
    "Verif.Budget.C24_nested_programs",
    "Verif.Budget.C24_nested_fresh"
   ],
   "note": ""
  },
  {
   "property": "C25",
   "status": "proved",
   "theorems": [
    "Verif.Budget.C25_depth",
    "Verif.Budget.C25_push",
    "Verif.Budget.C25_balanced",
    "Verif.Budget.C25_recursion"
   ],
   "note": ""
  },
  {
   "property": "C26",
   "status": "proved",
   "theorems": [
    "Verif.Graph.C26_history",
    "Verif.Graph.C26_symmetric",
    "Verif.Graph.C26_contract_reach"
   ],
   "note": "Any history of graph calls; panics are characterised."
  },
  {
   "property": "C27",
   "status": "proved",
   "theorems": [
    "Verif.Graph.C27_find_unreachable",
    "Verif.Graph.C27_remove_unreachable",
    "Verif.Graph.C27_isolated_block_violated"
   ],
   "note": "Blocks that are nodes of the graph; a block without edges is not (last theorem)."
  },
  {
   "property": "C28",
   "status": "proved",
   "theorems": [
    "Verif.Dom.C28_immediate_dominators"
   ],
   "note": "All graphs, irreducible ones included, with a bound on the number of passes."
  },
  {
   "property": "C29",
   "status": "partial",
   "theorems": [
    "Verif.Flow.C29_terminates",
    "Verif.Flow.C29_solution_partial",
    "Verif.Flow.C29_strict_partial",
    "Verif.Flow.C29_reachable_partial",
    "Verif.Flow.C29_least",
    "Verif.Flow.C29_violated",
    "Verif.Flow.C29_liveness_stuck",
    "Verif.Flow.C29_live_partial",
    "Verif.Flow.C29_live_sound_partial",
    "Verif.Flow.C29_liveness_violated"
   ],
   "note": "Terminates, lies below every solution and satisfies every equation of an evaluated block; but a block whose inputs stay at bottom is never evaluated, so the property as stated is false (violated theorems), in particular for liveness."
  },
  {
   "property": "C30",
   "status": "proved",
   "theorems": [
    "Verif.Flow.C30_allocate",
    "Verif.Flow.C30_deterministic",
    "Verif.Flow.C30_interference",
    "Verif.Flow.C30_normalise",
    "Verif.Flow.C30_total",
    "Verif.Flow.C30_regalloc_partial",
    "Verif.Flow.C30_clobber_violated",
    "Verif.Flow.C30_dead_target_violated"
   ],
   "note": "All interference graphs. The last three say what this gives for compute_regalloc, whose interference graph misses variables live across blocks and dead targets."
  },
  {
   "property": "C31",
   "status": "partial",
   "theorems": [
    "Verif.Opt.C31_partial",
    "Verif.Opt.C31_swap_violated"
   ],
   "note": "Whole control-flow graphs, when no phi reads what an earlier phi of the block writes on the same edge; otherwise the copies are wrong (violated theorem)."
  },
  {
   "property": "C32",
   "status": "partial",
   "theorems": [
    "Verif.Opt.C32_unused",
    "Verif.Opt.C32_getter_violated",
    "Verif.Opt.C32_copies_partial",
    "Verif.Opt.C32_chain_violated"
   ],
   "note": "Unused results: all programs, for interpretations whose loads have no effects. Copies: all strict SSA programs without chains of copies; chains are miscompiled in one pass (violated theorem)."
  },
  {
   "property": "C33",
   "status": "partial",
   "theorems": [
    "Verif.Opt.C33_partial",
    "Verif.Opt.C33_stale_read_violated"
   ],
   "note": "All strict SSA programs whose binary and unary operations depend on their operands only; property reads are reused across writes (violated theorem). The compile-time evaluator is a parameter assumed sound."
  },
  {
   "property": "C34",
   "status": "partial",
   "theorems": [
    "Verif.Eval.C34_number",
    "Verif.Eval.C34_unary_partial",
    "Verif.Eval.C34_not_violated",
    "Verif.Eval.C34_bitwise",
    "Verif.Eval.C34_arith",
    "Verif.Eval.C34_exp_violated",
    "Verif.Eval.C34_strict",
    "Verif.Eval.C34_loose_partial",
    "Verif.Eval.C34_loose_violated_rounding",
    "Verif.Eval.C34_loose_violated_blank",
    "Verif.Eval.C34_loose_violated_sign",
    "Verif.Eval.C34_compare_partial",
    "Verif.Eval.C34_compare_violated_panic",
    "Verif.Eval.C34_compare_violated_utf16",
    "Verif.Eval.C34_add_partial",
    "Verif.Eval.C34_add_violated_infinity",
    "Verif.Eval.C34_add_violated_zero",
    "Verif.Eval.C34_add_violated_large",
    "Verif.Eval.C34_math",
    "Verif.Eval.C34_round_partial",
    "Verif.Eval.C34_round_violated"
   ],
   "note": "StringToNumber, bitwise operators, shifts, arithmetic except **, strict equality, typeof and Math.abs/ceil/floor/trunc for all operands. The rest with exactly stated restrictions, each shown to be needed by a violated theorem: ! on BigInt, == and order with BigInts, order of strings outside the BMP, number texts outside 1e-6..1e16, Math.round of negative halves. ** is a parameter."
  },
  {
   "property": "C35",
   "status": "proved",
   "theorems": [
    "Verif.Escape.C35_emitted",
    "Verif.Escape.C35_minifier",
    "Verif.Escape.C35_roundtrip",
    "Verif.Escape.C35_minifier_roundtrip"
   ],
   "note": ""
  },
  {
   "property": "C36",
   "status": "partial",
   "theorems": [
    "Verif.Escape.C36_segment",
    "Verif.Escape.C36_hir",
    "Verif.Escape.C36_ast_partial",
    "Verif.Escape.C36_ast_violated",
    "Verif.Escape.C36_tagged_violated"
   ],
   "note": "Segments and HIR emission proved for all strings; emission from the syntax tree drops backticks and ${ at the ends of strings and the raw strings of tagged templates (violated theorems)."
  },
  {
   "property": "C37",
   "status": "partial",
   "theorems": [
    "Verif.Emit.C37_ast_roundtrip_partial",
    "Verif.Emit.C37_hir_roundtrip_partial",
    "Verif.Emit.C37_js_roundtrip_partial",
    "Verif.Emit.C37_js_injective_partial",
    "Verif.Emit.C37_js_violated",
    "Verif.Emit.C37_js_arrow_body_violated",
    "Verif.Emit.C37_ast_injective_partial",
    "Verif.Emit.C37_hir_injective_partial",
    "Verif.Emit.C37_comma_argument_violated",
    "Verif.Emit.C37_trailing_hole_violated",
    "Verif.Emit.C37_arrow_comma_violated",
    "Verif.Emit.C37_new_call_violated",
    "Verif.Emit.C37_new_call_member_violated",
    "Verif.Emit.C37_new_template_violated",
    "Verif.Emit.C37_bare_new_violated",
    "Verif.Emit.C37_await_power_violated",
    "Verif.Emit.C37_arrow_brace_violated",
    "Verif.Emit.C37_new_optional_violated"
   ],
   "note": "The three expression printers, all operator trees of okA / okH / okJ in every context. False outside: comma expressions as arguments or elements, a final array hole, a comma after an arrow function, calls and templates inside a constructor, new without arguments as an object or callee; for the lowered form also await left of ** and arrow bodies starting with an object literal. Primaries are opaque tokens."
  },
  {
   "property": "C38",
   "status": "partial",
   "theorems": [
    "Verif.Emit.C38_roundtrip_partial",
    "Verif.Emit.C38_styles_agree_partial",
    "Verif.Emit.C38_paren_start_violated",
    "Verif.Emit.C38_typeof_start_violated",
    "Verif.Emit.C38_comma_initialiser_violated",
    "Verif.Emit.C38_for_in_violated"
   ],
   "note": "For programs of the statements the printer supports, in both styles. Missing: the excluded shapes listed at okSJ; for each a counterexample theorem shows that the code loses the program (a parenthesis or typeof after a line without semicolon, comma initialisers, in inside a for header)."
  },
  {
   "property": "C39",
   "status": "partial",
   "theorems": [
    "Verif.Rename.C39_answers",
    "Verif.Rename.C39_partial",
    "Verif.Rename.C39_strict",
    "Verif.Rename.C39_linked",
    "Verif.Rename.C39_annexB_violated",
    "Verif.Rename.C39_pinned_violated"
   ],
   "note": "In full for strict code (all modules), with direct eval. Sloppy code: proved unless declarations lie between an Annex B block function and its var, or a with pins a variable next to free variables that are renamed; both are real captures (violated theorems)."
  },
  {
   "property": "C40",
   "status": "proved",
   "theorems": [
    "Verif.Names.C40_fresh",
    "Verif.Names.C40_injective",
    "Verif.Names.C40_not_reserved",
    "Verif.Names.C40_sequence"
   ],
   "note": "Counters are unbounded naturals."
  },
  {
   "property": "C41",
   "status": "proved",
   "theorems": [
    "Verif.Names.C41_rewrite",
    "Verif.Names.C41_sound"
   ],
   "note": "Byte offsets and char boundaries modelled; ranges that begin at a string literal are completed to the literal, as the code documents."
  },
  {
   "property": "C42",
   "status": "partial",
   "theorems": [
    "Verif.Names.C42_answers",
    "Verif.Names.C42_unique",
    "Verif.Names.C42_not_reserved",
    "Verif.Names.C42_valid_partial",
    "Verif.Names.C42_globals",
    "Verif.Names.C42_package_violated"
   ],
   "note": "Everything but one word: fresh(\"package\") answers a strict-mode reserved word (violated theorem)."
  },
  {
   "property": "C43",
   "status": "proved",
   "theorems": [
    "Verif.Harness.C43_total_preorder",
    "Verif.Harness.C43_sort",
    "Verif.Harness.C43_order_independent",
    "Verif.Harness.C43_normalize",
    "Verif.Harness.C43_normalize_keeps",
    "Verif.Harness.C43_ord"
   ],
   "note": ""
  },
  {
   "property": "C44",
   "status": "proved",
   "theorems": [
    "Verif.Harness.C44_shard_items",
    "Verif.Harness.C44_partition",
    "Verif.Harness.C44_each_position",
    "Verif.Harness.C44_sizes",
    "Verif.Harness.C44_parse",
    "Verif.Harness.C44_parse_numbers",
    "Verif.Harness.C44_parsed_applies"
   ],
   "note": ""
  },
  {
   "property": "C45",
   "status": "proved",
   "theorems": [
    "Verif.Harness.C45_accepts",
    "Verif.Harness.C45_lookup",
    "Verif.Harness.C45_order_irrelevant",
    "Verif.Harness.C45_outcomes",
    "Verif.Harness.C45_order_ignored_violated"
   ],
   "note": "Glob and regex matching are parameters; the last theorem shows that, against the documentation, manifest order matters inside a class."
  },
  {
   "property": "C46",
   "status": "proved",
   "theorems": [
    "Verif.Harness.C46_merge",
    "Verif.Harness.C46_merge_laws",
    "Verif.Harness.C46_best_effort",
    "Verif.Harness.C46_convert",
    "Verif.Harness.C46_checked",
    "Verif.Harness.C46_roundtrip",
    "Verif.Harness.C46_range",
    "Verif.Harness.C46_len"
   ],
   "note": ""
  },
  {
   "property": "C47",
   "status": "proved",
   "theorems": [
    "Verif.Types.C47_concurrent",
    "Verif.Types.C47_stable",
    "Verif.Types.C47_progress",
    "Verif.Types.C47_deterministic",
    "Verif.Types.C47_sequential",
    "Verif.Types.C47_returns",
    "Verif.Types.C47_strict",
    "Verif.Types.C47_names"
   ],
   "note": "All schedules of all numbers of threads, arbitrary fingerprint functions."
  },
  {
   "property": "C48",
   "status": "partial",
   "theorems": [
    "Verif.Types.C48_set",
    "Verif.Types.C48_stable",
    "Verif.Types.C48_canon",
    "Verif.Types.C48_normal_union",
    "Verif.Types.C48_normal_inter",
    "Verif.Types.C48_absorb_union",
    "Verif.Types.C48_absorb_inter",
    "Verif.Types.C48_flatten",
    "Verif.Types.C48_nested_partial",
    "Verif.Types.C48_boolean_violated",
    "Verif.Types.C48_any_violated",
    "Verif.Types.C48_order",
    "Verif.Types.C48_returns",
    "Verif.Types.C48_closed"
   ],
   "note": "All of it for member lists without nested simplification; flattening fails for true | false inside a union and for intersections with any (violated theorems)."
  },
  {
   "property": "C49",
   "status": "proved",
   "theorems": [
    "Verif.Heap.C49_no_dangling_handles"
   ],
   "note": "Legal histories: callers pass valid (and where needed rooted) handles."
  },
  {
   "property": "C50",
   "status": "proved",
   "theorems": [
    "Verif.Objects.C50_not_extensible"
   ],
   "note": ""
  },
  {
   "property": "C51",
   "status": "partial",
   "theorems": [
    "Verif.Jobs.C51_no_job_lost_partial",
    "Verif.Jobs.C51_lost_job_violated"
   ],
   "note": "Proved for scripts that make every call with explicit host hooks; the full claim is false of the code: a job queued by an accessor called through call_without_host is dropped."
  },
  {
   "property": "C52",
   "status": "partial",
   "theorems": [
    "Verif.Jobs.C52_vm_partial",
    "Verif.Jobs.C52_vm_order_violated"
   ],
   "note": "Proved for jobs that make every call with the hooks they were given; false in general (second theorem)."
  },
  {
   "property": "C53",
   "status": "proved",
   "theorems": [
    "Verif.Modules.C53_namespace_exports"
   ],
   "note": "Same graphs."
  },
  {
   "property": "C54",
   "status": "proved",
   "theorems": [
    "Verif.Modules.C54_link_by_specifier"
   ],
   "note": ""
  },
  {
   "property": "C55",
   "status": "partial",
   "theorems": [
    "Verif.Modules.C55_entries_partial",
    "Verif.Modules.C55_requested_modules",
    "Verif.Modules.C55_reexported_import_violated"
   ],
   "note": "Entries proved when no exported local name is a named import; the code records a re-exported import as a local export, and the last theorem shows resolution then differs from ECMA-262."
  },
  {
   "property": "C56",
   "status": "proved",
   "theorems": [
    "Verif.Loader.C56_returns",
    "Verif.Loader.C56_settles",
    "Verif.Loader.C56_settles_once",
    "Verif.Loader.C56_cause"
   ],
   "note": "Every host schedule, overlapping loads included; memory does not run out and the hook itself returns Ok."
  },
  {
   "property": "C57",
   "status": "proved",
   "theorems": [
    "Verif.Loader.C57_fulfilled_loaded",
    "Verif.Loader.C57_stable"
   ],
   "note": "Same model."
  },
  {
   "property": "C58",
   "status": "proved",
   "theorems": [
    "Verif.Loader.C58_asked_once",
    "Verif.Loader.C58_asked_when_needed"
   ],
   "note": "Same model."
  },
  {
   "property": "C59",
   "status": "proved",
   "theorems": [
    "Verif.Graph.C59_postorder"
   ],
   "note": ""
  },
  {
   "property": "C60",
   "status": "proved",
   "theorems": [
    "Verif.Dom.C60_dominates",
    "Verif.Dom.C60_children",
    "Verif.Dom.C60_lca",
    "Verif.Dom.C60_lca_all"
   ],
   "note": ""
  },
  {
   "property": "C61",
   "status": "proved",
   "theorems": [
    "Verif.Dom.C61_frontiers",
    "Verif.Dom.C61_frontiers_partial",
    "Verif.Dom.C61_entry_violated",
    "Verif.Dom.C61_unreachable_violated"
   ],
   "note": "Exact for graphs whose entry has no predecessor and without unreachable predecessors; the violated theorems show that both conditions are needed, the partial one what holds without the first."
  },
  {
   "property": "C62",
   "status": "proved",
   "theorems": [
    "Verif.Dom.C62_natural_loops"
   ],
   "note": ""
  },
  {
   "property": "C63",
   "status": "partial",
   "theorems": [
    "Verif.Escape.C63_reads",
    "Verif.Escape.C63_reads_strict",
    "Verif.Escape.C63_sound",
    "Verif.Escape.C63_octal_violated",
    "Verif.Escape.C63_lone_quote_violated"
   ],
   "note": "All of strict code; in sloppy code octal escapes above 377 and, at the end of the source, a lone quote deviate (violated theorems)."
  },
  {
   "property": "C64",
   "status": "partial",
   "theorems": [
    "Verif.Escape.C64_reads",
    "Verif.Escape.C64_exact",
    "Verif.Escape.C64_tagged",
    "Verif.Escape.C64_cr_violated"
   ],
   "note": "Templates without CR; the reader does not normalise CR (violated theorem)."
  },
  {
   "property": "C65",
   "status": "partial",
   "theorems": [
    "Verif.Rename.C65_partial",
    "Verif.Rename.C65_annexB_violated"
   ],
   "note": "Everything but Annex B block functions used inside a with (violated theorem)."
  },
  {
   "property": "C66",
   "status": "proved",
   "theorems": [
    "Verif.Types.C66_union",
    "Verif.Types.C66_inter",
    "Verif.Types.C66_stable"
   ],
   "note": ""
  },
  {
   "property": "C67",
   "status": "proved",
   "theorems": [
    "Verif.Types.C67_map",
    "Verif.Types.C67_store",
    "Verif.Types.C67_deterministic"
   ],
   "note": "The restored store is given the fingerprint function of the original, as holds for every store made by the documented constructors."
  },
  {
   "property": "C68",
   "status": "partial",
   "theorems": [
    "Verif.Types.C68_partial",
    "Verif.Types.C68_keys",
    "Verif.Types.C68_order_violated"
   ],
   "note": "Properties with different keys; with repeated keys the merged origin depends on the order (violated theorem)."
  },
  {
   "property": "C69",
   "status": "partial",
   "theorems": [
    "Verif.Lex.C69_tokens_partial",
    "Verif.Lex.C69_any_order_partial",
    "Verif.Lex.C69_injective_partial",
    "Verif.Lex.C69_strings",
    "Verif.Lex.C69_regexes",
    "Verif.Lex.C69_html_comment_violated",
    "Verif.Lex.C69_regex_violated",
    "Verif.Lex.C69_integer_member_violated",
    "Verif.Lex.C69_unicode_identifier_violated",
    "Verif.Lex.C69_non_null_violated"
   ],
   "note": "For all sequences of words, numbers, BigInts, strings, regular expressions and punctuators in an order the grammar allows. Missing: `<`, `!`, `--` inside a line, names behind a regular expression without flags, a dot behind an integer, and non-ASCII identifiers written by write_str, for which the statement is false (witnesses); templates, private names, decorators and JSX are not modelled."
  },
  {
   "property": "C70",
   "status": "partial",
   "theorems": [
    "Verif.Emit.C70_roundtrip_partial",
    "Verif.Emit.C70_injective_partial",
    "Verif.Emit.C70_dangling_else_violated",
    "Verif.Emit.C70_semicolon_else_violated",
    "Verif.Emit.C70_brace_start_violated",
    "Verif.Emit.C70_comma_initialiser_violated",
    "Verif.Emit.C70_for_in_violated"
   ],
   "note": "For all statements except for\u2026in/of, with, modules, TypeScript and destructuring (not modelled) and the shapes excluded in okSA, for each of which a counterexample theorem shows that the code loses the program."
  },
  {
   "property": "C71",
   "status": "partial",
   "theorems": [
    "Verif.Ssa.C71_partial",
    "Verif.Ssa.C71_program_partial",
    "Verif.Ssa.C71_there_and_back_partial",
    "Verif.Ssa.C71_entry_violated"
   ],
   "note": "For all well-formed programs whose entry is not the target of a jump and whose blocks are all reachable: no panic, strict SSA, complete phis, same run; followed at once by leaving SSA also the same run. Missing: entry with predecessors, where the statement is false (witness), and unreachable blocks."
  },
  {
   "property": "C72",
   "status": "partial",
   "theorems": [
    "Verif.Ssa.C72_partial",
    "Verif.Ssa.C72_entry_violated"
   ],
   "note": "Full strength for programs in SSA form without phis in the entry; C72_entry_violated shows that the pass is wrong on an entry with phis."
  },
  {
   "property": "C73",
   "status": "partial",
   "theorems": [
    "Verif.Ssa.C73_partial",
    "Verif.Ssa.C73_bigint_violated"
   ],
   "note": "Termination, SSA form and equal runs for programs without branches on BigInt constants; C73_bigint_violated: coerce_to_bool is inverted for BigInt, so `if (0n)` takes the wrong branch."
  },
  {
   "property": "C74",
   "status": "proved",
   "theorems": [
    "Verif.Lin.C74",
    "Verif.Lin.C74_into_ssa"
   ],
   "note": "For all code that meets CodeOk: labels declared once and below the counter, jumps to declared labels, no phis, no block behind a final jump that nothing enters. The counters do not overflow 32 bits."
  },
  {
   "property": "C75",
   "status": "partial",
   "theorems": [
    "Verif.Lower.C75_partial",
    "Verif.Lower.C75_into_ssa_partial",
    "Verif.Lower.C75_operand_read_late_violated",
    "Verif.Lower.C75_update_global_violated",
    "Verif.Lower.C75_update_shared_violated",
    "Verif.Lower.C75_update_property_violated",
    "Verif.Lower.C75_update_numeric_violated",
    "Verif.Lower.C75_compound_global_violated",
    "Verif.Lower.C75_compound_property_violated"
   ],
   "note": "For bodies in which no local variable that is an operand is assigned before the operation is performed, x += e on shared or global places has an e that does nothing, and ++/-- are used on local variables holding numbers; the violated theorems show that the code is wrong on the others. Not modelled: for-in/of, destructuring, function declarations, the typed build; exceptions and return values do not exist in the instructions."
  },
  {
   "property": "C76",
   "status": "partial",
   "theorems": [
    "Verif.Prune.C76_partial",
    "Verif.Prune.C76_phi_entry_violated",
    "Verif.Prune.C76_reroot_violated",
    "Verif.Prune.C76_panic_violated"
   ],
   "note": "Equal effects and SSA form for all programs in which the entries of a phi that may come to the same block by removal of empty blocks are equal (NoRace) and an empty entry leads to no phi through such blocks (EntryApart); end without panic, with nothing left to merge, if moreover no exit is empty. Without these conditions the statement is false of the code (three violated theorems)."
  },
  {
   "property": "C77",
   "status": "partial",
   "theorems": [
    "Verif.Pipe.C77_partial",
    "Verif.Pipe.C77_rounds_partial",
    "Verif.Pipe.C77_branch_violated",
    "Verif.Pipe.C77_loop_violated",
    "Verif.Pipe.C77_panic_violated"
   ],
   "note": "For all bodies as in C75 and any number of iterations that end without panic and meet none of the faults found in single passes (CleanRounds). Without that the statement is false of the code: `let x = 1; if (c) { x = 2 } f(x)` becomes f(2), a counting loop loses its initial value, nested ifs panic."
  },
  {
   "property": "C78",
   "status": "partial",
   "theorems": [
    "Verif.Exec.C78_partial",
    "Verif.Exec.C78_function_partial",
    "Verif.Exec.C78_script_partial",
    "Verif.Exec.Toy.C78_if_value_violated",
    "Verif.Exec.Toy.C78_finally_violated",
    "Verif.Exec.Toy.C78_close_error_violated",
    "Verif.Exec.Toy.C78_step_close_violated",
    "Verif.Exec.Toy.C78_of_let_violated",
    "Verif.Exec.Toy.C78_body_let_violated",
    "Verif.Exec.Toy.C78_head_violated"
   ],
   "note": "Both directions (soundness and completeness against ECMA-262 as an inductive relation) for all Plain statements: no declarations in bodies of for loops, no let/const in for-of heads, iterators whose closing does not fail, and binding the parameter of a catch that has a finally does not throw; values of completions for programs without if. Each exclusion is a program on which the interpreter differs (seven violated theorems). Expressions, patterns and iterators are parameters."
  },
  {
   "property": "C79",
   "status": "partial",
   "theorems": [
    "Verif.Expr.C79_partial",
    "Verif.Expr.C79_left_out",
    "Verif.Expr.C79_string_order_violated",
    "Verif.Expr.C79_bigint_order_violated",
    "Verif.Expr.C79_bigint_sub_violated",
    "Verif.Expr.C79_bigint_equal_violated",
    "Verif.Expr.C79_object_equal_violated",
    "Verif.Expr.C79_strict_delete_violated",
    "Verif.Expr.C79_proto_violated",
    "Verif.Expr.C79_new_call_violated",
    "Verif.Expr.C79_closed_chain_violated",
    "Verif.Expr.C79_chain_violated",
    "Verif.Expr.C79_instanceof_arrow_violated",
    "Verif.Expr.C79_instanceof_object_violated",
    "Verif.Expr.C79_name_violated",
    "Verif.Expr.C79_late_binding_violated"
   ],
   "note": "Equal results and states for all expressions, hosts, contexts and states, for runs that meet none of fourteen cases the interpreter gets wrong (violated theorems: order of strings and BigInts, - / % on BigInts, == with objects and BigInts, strict delete, __proto__, new (f()), ends of optional chains, instanceof with unusual right sides, names of functions, late resolution of assigned names). Direct eval, tagged templates, patterns, and environments and objects themselves are not modelled here."
  },
  {
   "property": "C80",
   "status": "partial",
   "theorems": [
    "Verif.Fold.C80_value_partial",
    "Verif.Fold.C80_condition_partial",
    "Verif.Fold.C80_target_partial",
    "Verif.Fold.C80_clear_partial",
    "Verif.Fold.C80_number_text",
    "Verif.Fold.C80_this_violated",
    "Verif.Fold.C80_delete_violated",
    "Verif.Fold.C80_typeof_violated",
    "Verif.Fold.C80_new_violated",
    "Verif.Fold.C80_chain_violated",
    "Verif.Fold.C80_name_violated",
    "Verif.Fold.C80_pow_violated"
   ],
   "note": "For all expressions, hosts, contexts and states, except where folding puts an operand into a place that treats it as more than a value (call with this, delete, typeof, new, optional chain, name of a function) and for 1 ** NaN: seven violated theorems. Statements are not modelled."
  },
  {
   "property": "C81",
   "status": "partial",
   "theorems": [
    "Verif.Free.C81_partial",
    "Verif.Free.C81_effect_violated",
    "Verif.Free.C81_throw_violated"
   ],
   "note": "For all accepted expressions in which no operator converts an object to a primitive value; the function accepts others, which call methods or throw (violated theorems). Assumes unbounded BigInts."
  },
  {
   "property": "C82",
   "status": "partial",
   "theorems": [
    "Verif.Relate.C82_partial",
    "Verif.Relate.C82_history_partial",
    "Verif.Relate.C82_history_violated",
    "Verif.Relate.C82_depth_violated",
    "Verif.Relate.C82_first_violated"
   ],
   "note": "A question that holds is never denied, for all types, limits, caches and histories; exact and independent of history when all questions are about types whose unfolding ends within the depth limit. False otherwise: answers found under assumptions stay in the cache (violated theorems). is_strict_subtype only in the second part. The evaluator is taken as a function of the type."
  },
  {
   "property": "C83",
   "status": "partial",
   "theorems": [
    "Verif.Relate.C83_extremes",
    "Verif.Relate.C83_simple",
    "Verif.Relate.C83_member_partial",
    "Verif.Relate.C83_union_partial",
    "Verif.Relate.C83_intersection_partial",
    "Verif.Relate.C83_member_violated",
    "Verif.Relate.C83_union_violated",
    "Verif.Relate.C83_never_violated"
   ],
   "note": "Extremes and simple types in full; unions and intersections with the listed exceptions, for which the code breaks the laws (violated theorems)."
  },
  {
   "property": "C84",
   "status": "partial",
   "theorems": [
    "Verif.Relate.C84_partial",
    "Verif.Relate.C84_tuple_violated",
    "Verif.Relate.C84_index_violated",
    "Verif.Relate.C84_array_violated",
    "Verif.Relate.C84_empty_violated"
   ],
   "note": "For types without functions, type parameters, any, rest elements and declared variances, under strict null checks and without noUncheckedIndexedAccess, questions within the depth limit; excluding, pair by pair, optional or implicitly indexed properties (unsound in TypeScript by design) and the four faults of the violated theorems. The store (normalization, union with undefined, interning, templates) is assumed to preserve values."
  },
  {
   "property": "C85",
   "status": "proved",
   "theorems": [
    "Verif.Spans.C85",
    "Verif.Spans.C85_order",
    "Verif.Spans.C85_defs",
    "Verif.Spans.C85_defs_none",
    "Verif.Spans.C85_defs_span"
   ],
   "note": "The index in full, for every kind of span (any linearly ordered id), and the definitions part of SpanMap with its rank. Offsets are natural numbers."
  },
  {
   "property": "C86",
   "status": "partial",
   "theorems": [
    "Verif.Narrow.C86_partial",
    "Verif.Narrow.C86_truthy",
    "Verif.Narrow.C86_within",
    "Verif.Narrow.C86_and_violated",
    "Verif.Narrow.C86_and_same_violated",
    "Verif.Narrow.C86_coalesce_violated",
    "Verif.Narrow.C86_typeof_tuple_violated",
    "Verif.Narrow.C86_typeof_void_violated",
    "Verif.Narrow.C86_typeof_template_violated",
    "Verif.Narrow.C86_typeof_intersection_violated",
    "Verif.Narrow.C86_typeof_function_violated",
    "Verif.Narrow.C86_null_violated",
    "Verif.Narrow.C86_literal_violated",
    "Verif.Narrow.C86_loose_violated",
    "Verif.Narrow.C86_in_optional_violated",
    "Verif.Narrow.C86_in_open_violated",
    "Verif.Narrow.C86_discriminant_violated",
    "Verif.Narrow.C86_length_violated",
    "Verif.Narrow.C86_predicate_violated"
   ],
   "note": "Values are kept for the conditions and types that are Fair, and for all tests of truthiness; nothing is ever added. The code loses values in the other cases: each _violated theorem is one."
  },
  {
   "property": "C87",
   "status": "partial",
   "theorems": [
    "Verif.Stmts.C87_partial",
    "Verif.Stmts.C87_stays_fair",
    "Verif.Stmts.C87_flow_whole",
    "Verif.Stmts.C87_function_violated",
    "Verif.Stmts.C87_directive_violated",
    "Verif.Stmts.C87_directive_if_violated",
    "Verif.Stmts.C87_import_violated",
    "Verif.Stmts.C87_export_violated"
   ],
   "note": "All four passes in any order, for bodies with their directives in front and no function as the body of another statement; the control flow pass for bodies without imports and exports. The code breaks the others: each _violated theorem is one. Completion values of scripts are not modelled."
  },
  {
   "property": "C88",
   "status": "partial",
   "theorems": [
    "Verif.Structure.C88_same_ends_partial",
    "Verif.Structure.C88_state_machine",
    "Verif.Structure.C88_total",
    "Verif.Structure.C88_loop_condition_violated",
    "Verif.Structure.C88_inner_block_violated",
    "Verif.Structure.C88_entry_violated"
   ],
   "note": "Same ends for all graphs whose loops are not left on a true condition of the header and in which one-successor blocks of inner loops go back to the header; in full for graphs that become a state machine. The code is wrong for the others and for state machines whose entry is not block 0 (violated theorems). How operations are spelled is not modelled."
  },
  {
   "property": "C89",
   "status": "partial",
   "theorems": [
    "Verif.Numeric.C89_read_is_literal_partial",
    "Verif.Numeric.C89_number_is_read",
    "Verif.Numeric.C89_strict",
    "Verif.Numeric.C89_bigint_is_read",
    "Verif.Numeric.C89_from_literal",
    "Verif.Numeric.C89_digits",
    "Verif.Numeric.C89_glued_violated"
   ],
   "note": "What is read is a literal with its value, every longest literal is read, and strict mode code is restricted, for all texts. Missing: the code does not reject an identifier directly after a literal (C89_glued_violated). Rounding to a double is left to fast_float and not modelled."
  },
  {
   "property": "C90",
   "status": "partial",
   "theorems": [
    "Verif.Bind.C90_uses_mean_partial",
    "Verif.Bind.C90_param_closure_violated",
    "Verif.Bind.C90_pattern_assignment_violated",
    "Verif.Bind.C90_for_head_violated",
    "Verif.Bind.C90_async_block_function_violated",
    "Verif.Bind.C90_object_method_violated",
    "Verif.Bind.C90_catch_pattern_violated",
    "Verif.Bind.C90_arguments_violated"
   ],
   "note": "For all programs without the seven constructs below, every use gets the scope ECMA-262 gives it. Missing: the binder binds closures in parameter defaults, assignments in pattern defaults, heads of for-of loops, async block functions, block functions in object methods or under destructured catch parameters, and arguments wrongly (one witness each). with and direct eval are not modelled."
  },
  {
   "property": "C91",
   "status": "partial",
   "theorems": [
    "Verif.WebIdl.C91_convert_partial",
    "Verif.WebIdl.C91_typed",
    "Verif.WebIdl.C91_to_js_partial",
    "Verif.WebIdl.C91_to_js_total_partial",
    "Verif.WebIdl.C91_distinguishing_index",
    "Verif.WebIdl.C91_overload_none",
    "Verif.WebIdl.C91_overload_one",
    "Verif.WebIdl.C91_overload_many_partial",
    "Verif.WebIdl.C91_overload_typed",
    "Verif.WebIdl.C91_no_panic",
    "Verif.WebIdl.C91_index_key",
    "Verif.WebIdl.C91_to_js_nullable_violated",
    "Verif.WebIdl.C91_union_number_violated",
    "Verif.WebIdl.C91_union_boolean_object_violated",
    "Verif.WebIdl.C91_union_nullable_violated",
    "Verif.WebIdl.C91_overload_number_violated",
    "Verif.WebIdl.C91_overload_null_violated",
    "Verif.WebIdl.C91_overload_optional_violated",
    "Verif.WebIdl.C91_overload_object_violated",
    "Verif.WebIdl.C91_overload_reads_twice_violated"
   ],
   "note": "For every engine: conversions are Web IDL's, with the same effects in the same order, for all types and for unions that UnionFits describes; results have their types and keep to the limit; overload resolution is Web IDL's for arguments that ChoiceFits describes; nothing panics. Missing: numbers, booleans and objects in unions and overloads, nullable union members, null and undefined arguments, and nullable types on the way back, which the code gets wrong (nine witnesses). Only the types of the crate's IdlType are modelled."
  },
  {
   "property": "C92",
   "status": "partial",
   "theorems": [
    "Verif.PropKey.C92_member_partial",
    "Verif.PropKey.C92_member_valid_partial",
    "Verif.PropKey.C92_key_partial",
    "Verif.PropKey.C92_proto_partial",
    "Verif.PropKey.C92_shorthand_partial",
    "Verif.PropKey.C92_shorthand_pattern_partial",
    "Verif.PropKey.C92_large_index_violated",
    "Verif.PropKey.C92_escape_violated",
    "Verif.PropKey.C92_proto_escape_violated"
   ],
   "note": "For all keys without backslashes and for indices below 2^53, for doubles that follow IEEE 754 and Number::toString. Missing: the minifier rewrites indices that are doubles but print with fewer digits, takes strings like \\u0061 for identifiers with escapes, and makes shorthands of escaped __proto__ (witnesses). The walk over the tree is not modelled."
  },
  {
   "property": "C93",
   "status": "partial",
   "theorems": [
    "Verif.Paths.C93_normal",
    "Verif.Paths.C93_unique",
    "Verif.Paths.C93_rooted",
    "Verif.Paths.C93_idempotent_partial",
    "Verif.Paths.C93_idempotent_violated"
   ],
   "note": "The result is proved for all strings. Missing: idempotence when the first directory looks like a drive, where it fails (witness: ./C:/x)."
  },
  {
   "property": "C94",
   "status": "partial",
   "theorems": [
    "Verif.NumKey.C94_eq",
    "Verif.NumKey.C94_equivalence",
    "Verif.NumKey.C94_key_partial",
    "Verif.NumKey.C94_lookup_partial",
    "Verif.NumKey.C94_zero_violated",
    "Verif.NumKey.C94_lookup_violated",
    "Verif.NumKey.C94_order_partial",
    "Verif.NumKey.C94_transitive_partial",
    "Verif.NumKey.C94_order_violated"
   ],
   "note": "Equality is SameValueZero for all doubles. Missing, with witnesses: 0 and -0 are equal though they are different values with different hashes, so an operation on -0 may be replaced by the one on 0; NaN compares as equal to every number."
  },
  {
   "property": "C95",
   "status": "proved",
   "theorems": [
    "Verif.Loops.C95_loops",
    "Verif.Loops.C95_no_overlap",
    "Verif.Loops.C95_parent",
    "Verif.Loops.C95_children",
    "Verif.Loops.C95_forest_valid"
   ],
   "note": "For all graphs and entries. Loops are identified by their position; the model uses lists without repetition for sets."
  },
  {
   "property": "C96",
   "status": "proved",
   "theorems": [
    "Verif.Widen.C96_literal",
    "Verif.Widen.C96_values",
    "Verif.Widen.C96_contains",
    "Verif.Widen.C96_array_elements",
    "Verif.Widen.C96_no_literal",
    "Verif.Widen.C96_unchanged",
    "Verif.Widen.C96_again",
    "Verif.Widen.C96_store",
    "Verif.Widen.C96_bound"
   ],
   "note": "For widen_literal, widen_union_literals and widen_array_elements; widen_object_literal_props is C97. A store that runs out of identifiers returns nothing in the model."
  },
  {
   "property": "C97",
   "status": "proved",
   "theorems": [
    "Verif.Widen.C97_object",
    "Verif.Widen.C97_unchanged",
    "Verif.Widen.C97_again",
    "Verif.Types.reachable_keys"
   ],
   "note": "For all reachable stores and all types in them. That stored shapes list each key once is reachable_keys."
  },
  {
   "property": "C98",
   "status": "partial",
   "theorems": [
    "Verif.Subst.C98_type_partial",
    "Verif.Subst.C98_signature_partial",
    "Verif.Subst.C98_violated"
   ],
   "note": "Holds where the parameter is not used inside a type predicate or the constraint of an infer type. C98_violated: substitute_type leaves `x is T` as it is. About calls that return; that the recursion ends is C102."
  },
  {
   "property": "C99",
   "status": "proved",
   "theorems": [
    "Verif.Subst.C99_type",
    "Verif.Subst.C99_signature"
   ],
   "note": "For all reachable stores, mappings and histories of calls. About calls that return: a store that runs out of identifiers is outside; that the recursion ends is C102."
  },
  {
   "property": "C100",
   "status": "proved",
   "theorems": [
    "Verif.Types.C100_again"
   ],
   "note": "For all reachable stores and all operations. About operations that return the first time."
  },
  {
   "property": "C101",
   "status": "proved",
   "theorems": [
    "Verif.Subst.C101_type",
    "Verif.Subst.C101_signature"
   ],
   "note": "For all reachable stores, mappings and pairs of histories. About calls that return."
  },
  {
   "property": "C102",
   "status": "proved",
   "theorems": [
    "Verif.Subst.C102_type",
    "Verif.Subst.C102_signature"
   ],
   "note": "For all reachable stores, mappings and histories. A store that runs out of identifiers still makes a call fail."
  },
  {
   "property": "C103",
   "status": "partial",
   "theorems": [
    "Verif.Subst.C103_partial",
    "Verif.Subst.C103_violated"
   ],
   "note": "For all histories of calls whose mappings give a type to exactly the type parameters of the signature. Missing: mappings that leave one out share an entry with mappings to unknown, and then a wrong signature is returned (C103_violated). Concurrent calls are not modelled."
  },
  {
   "property": "C104",
   "status": "proved",
   "theorems": [
    "Verif.Types.C104_type",
    "Verif.Types.C104_signature",
    "Verif.Types.C104_shape",
    "Verif.Types.C104_object",
    "Verif.Types.C104_name"
   ],
   "note": "For all stores that operations can build, with arbitrary fingerprint functions."
  },
  {
   "property": "C105",
   "status": "proved",
   "theorems": [
    "Verif.Subst.C105_type",
    "Verif.Subst.C105_signature",
    "Verif.Subst.C105_type_returns",
    "Verif.Subst.C105_signature_returns"
   ],
   "note": "For all stores that operations can build and all calls of a new substituter; with a bound on the recursion as large as the number of types they return."
  }
 ]
}